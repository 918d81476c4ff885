import Verif.Props.OcpSparseHess
import Verif.Props.QuasiNewton

/-!
# Sparse quasi-Newton update (C46, C83)
-/

namespace PolyMPC.Ocp
open AD Sparse Sparse.Csc Matrix PolyMPC.QuasiNewton

set_option linter.unusedSectionVars false
set_option linter.unusedVariables false

/-- Node to which a state or control variable belongs. -/
def nodeOf (d : Dims) (i : ℕ) : ℕ := if i < d.NX * d.NN then i / d.NX else (i - d.NX * d.NN) / d.NU

/-- Variables that are linked: they belong to the same node, or one of them is a parameter. -/
def Linked (d : Dims) (r c : ℕ) : Prop := d.NX * d.NN + d.NU * d.NN ≤ r ∨ d.NX * d.NN + d.NU * d.NN ≤ c ∨ nodeOf d r = nodeOf d c

instance (d : Dims) (r c : ℕ) : Decidable (Linked d r c) := inferInstanceAs (Decidable (_ ∨ _ ∨ _))

theorem nodeOf_idx (d : Dims) {t j : ℕ} (ht : t < d.NN) (hj : j < d.NX + d.NU) : nodeOf d (nodeIdx d t j) = t := by
  unfold nodeOf
  by_cases h : j < d.NX
  · have : t * d.NX + j < d.NX * d.NN := xIdx_lt d ht h
    rw [nodeIdx_x d t h, if_pos this, blk_div t h]
  · obtain ⟨a, rfl⟩ := Nat.exists_eq_add_of_le (not_lt.1 h)
    have hV : d.VARX = d.NX * d.NN := rfl
    rw [nodeIdx_u d t (by omega), if_neg (by omega), show t * d.NU + d.VARX + a - d.NX * d.NN = t * d.NU + a by omega, blk_div t (by omega)]

theorem hesPat_linked (d : Dims) {r c : ℕ} (hr : r < d.VAR) (hc : c < d.VAR) : hesPat d c r = true ↔ Linked d r c := by
  have hV : d.VARX + d.VARU = d.NX * d.NN + d.NU * d.NN := rfl
  unfold hesPat Linked
  rw [nodePat_iff, ← hV]
  constructor
  · rintro (⟨t, ht, i, hi, j, hj, hij, rfl, rfl⟩ | ⟨-, h, -⟩)
    · by_cases h1 : i < d.NX + d.NU
      · by_cases h2 : j < d.NX + d.NU
        · right; right; rw [nodeOf_idx d ht h1, nodeOf_idx d ht h2]
        · right; left; rw [nodeIdx_ge d (by omega)]; omega
      · left; rw [nodeIdx_ge d (by omega)]; omega
    · exact Or.inl h.1
  · intro h
    rcases col_node d hr with ⟨t, ht, i, hi, rfl⟩ | ⟨a, ha, rfl⟩
    · rcases col_node d hc with ⟨t', ht', j, hj, rfl⟩ | ⟨b, hb, rfl⟩
      · have h1 := nodeIdx_xu_lt d ht hi
        have h2 := nodeIdx_xu_lt d ht' hj
        have h3 : nodeOf d (nodeIdx d t i) = nodeOf d (nodeIdx d t' j) := by omega
        rw [nodeOf_idx d ht hi, nodeOf_idx d ht' hj] at h3
        subst h3
        exact Or.inl ⟨t, ht, i, by unfold Dims.M; omega, j, by unfold Dims.M; omega, Or.inl hi, rfl, rfl⟩
      · exact Or.inl ⟨t, ht, i, by unfold Dims.M; omega, d.NX + d.NU + b, by unfold Dims.M; omega, Or.inl hi, rfl, (nodeIdx_p d t b).symm⟩
    · rcases col_node d hc with ⟨t', ht', j, hj, rfl⟩ | ⟨b, hb, rfl⟩
      · exact Or.inl ⟨t', ht', d.NX + d.NU + a, by unfold Dims.M; omega, j, by unfold Dims.M; omega, Or.inr hj, (nodeIdx_p d t' a).symm, rfl⟩
      · exact Or.inr ⟨rfl, by omega, by omega⟩

section Order
variable {K : Type} [Field K] [LinearOrder K]

/-- The matrix as a dense one. -/
def toMat (d : Dims) (H : Csc K) : Matrix (Fin d.VAR) (Fin d.VAR) K := Matrix.of fun r c => H.coeff r c

/-- First `VAR` components. -/
def fin (d : Dims) (s : ℕ → K) : Fin d.VAR → K := fun i => s i

theorem dot_fin (d : Dims) (a b : ℕ → K) : dotVar d a b = fin d a ⬝ᵥ fin d b := by
  unfold dotVar dotProduct fin
  exact (Fin.sum_univ_eq_sum_range (fun i => a i * b i) d.VAR).symm

theorem mulVec_fin {d : Dims} {H : Csc K} {M : ℕ → ℕ → K} (h : HesForm d H M) (s : ℕ → K) : fin d (mulVec d H s) = toMat d H *ᵥ fin d s := by
  funext r
  unfold fin
  rw [mulVec_eq h.holds]
  exact (Fin.sum_univ_eq_sum_range (fun c => H.coeff r c * s c) d.VAR).symm

theorem pair_fin (d : Dims) (v s y : ℕ → K) :
    dampedPair (fin d v) (fin d s) (fin d y) = (bfgsPair d v s y).map fun p => (fin d p.1, p.2) := by
  unfold dampedPair bfgsPair divide
  simp only [dot_fin]
  by_cases h : 2 / 10 * (fin d s ⬝ᵥ fin d v) ≤ fin d s ⬝ᵥ fin d y
  · rw [if_pos h, if_neg (not_lt.2 h)]; rfl
  · rw [if_neg h, if_pos (not_le.1 h)]
    by_cases h0 : fin d s ⬝ᵥ fin d v - fin d s ⬝ᵥ fin d y = 0
    · rw [if_pos h0, if_pos h0]; rfl
    · rw [if_neg h0, if_neg h0]
      simp only [Option.map_some, Option.some.injEq, Prod.mk.injEq]
      refine ⟨rfl, ?_⟩
      simp only [fin, dotProduct, Finset.mul_sum, ← Finset.sum_add_distrib]
      exact Finset.sum_congr rfl fun i _ => by ring

end Order

section OrderRing
variable {K : Type} [Field K] [LinearOrder K] [IsStrictOrderedRing K]

/-- **C46.** After any history of evaluations and updates, whenever the dense damped BFGS update (C17, C18) changes the matrix with the same
entries, the sparse update succeeds. The new entries are those of the dense result for linked variables, and zero for the others, for which
the old matrix was zero as well. -/
theorem sparse_bfgs (d : Dims) (A : Approx K) (hX : 0 < d.NX) (hS : 1 ≤ d.S) (hN : 1 ≤ d.N) {H : Csc K} (hH : ReachH d A H) (hne : ¬ Empty H)
    (s y : ℕ → K) {eps : K} {B' : Matrix (Fin d.VAR) (Fin d.VAR) K} (hB : bfgsUpdate eps (toMat d H) (fin d s) (fin d y) = some B') :
    (targetCurvature (toMat d H) (fin d s) (fin d y) < eps ∧ B' = toMat d H) ∨
    ∃ H', hessianUpdate d H s y = some H' ∧ ∀ r c : Fin d.VAR, H'.coeff r c = (if Linked d r c then B' r c else 0) ∧
      (¬ Linked d r c → H.coeff r c = 0) := by
  obtain ⟨M, hM⟩ := (hH.inv hX hS hN).resolve_left hne
  obtain ⟨r, sr, hp, hcase⟩ := bfgsUpdate_some hB
  rw [← mulVec_fin hM] at hp
  have hp' := pair_fin d (mulVec d H s) s y
  rw [hp] at hp'
  rw [eq_comm, Option.map_eq_some_iff] at hp'
  obtain ⟨⟨rn, sr'⟩, hbp, he⟩ := hp'
  simp only [Prod.mk.injEq] at he
  obtain ⟨rfl, rfl⟩ := he
  rcases hcase with ⟨hlt, rfl⟩ | ⟨hge, h1, h2, rfl⟩
  · left
    refine ⟨?_, rfl⟩
    have : sr' = targetCurvature (toMat d H) (fin d s) (fin d y) := by
      unfold targetCurvature
      rw [← mulVec_fin hM]
      unfold dampedPair divide at hp
      simp only at hp
      split_ifs at hp with q1 q2
      · exact absurd hp (by simp)
      · simp only [Option.map_some, Option.some.injEq, Prod.mk.injEq] at hp
        rw [if_pos q1, ← hp.2]
        field_simp
        ring
      · simp only [Option.some.injEq, Prod.mk.injEq] at hp
        rw [if_neg q1, ← hp.2]
    rw [← this]; exact hlt
  · right
    have h1' : dotVar d s (mulVec d H s) ≠ 0 := by rw [dot_fin, mulVec_fin hM]; exact h1
    obtain ⟨H', e, h'⟩ := hessianUpdate_form d hM s y h1' hbp h2
    refine ⟨H', e, fun i j => ⟨?_, fun hl => ?_⟩⟩
    · rw [h'.holds.coeff_eq j.2]
      by_cases hl : Linked d i j
      · rw [if_pos hl, if_pos ((hesPat_linked d i.2 j.2).2 hl)]
        simp only [Matrix.add_apply, Matrix.of_apply, outer]
        unfold toMat bfgsTerm
        rw [Matrix.of_apply, hM.holds.coeff_eq j.2, if_pos ((hesPat_linked d i.2 j.2).2 hl)]
        have e1 : (Matrix.of fun r c : Fin d.VAR => H.coeff r c) *ᵥ fin d s = fin d (mulVec d H s) := (mulVec_fin hM s).symm
        rw [e1, dot_fin]
        unfold fin
        ring
      · rw [if_neg hl, if_neg fun h => hl ((hesPat_linked d i.2 j.2).1 h)]
    · rw [hM.holds.coeff_eq j.2, if_neg fun h => hl ((hesPat_linked d i.2 j.2).1 h)]

/-- **C46 (negative).** The dense update leaves the matrix alone when the step is zero; the sparse one divides by zero. -/
theorem sparse_bfgs_zero_step (d : Dims) (H : Csc K) (y : ℕ → K) : hessianUpdate d H (fun _ => 0) y = none := by
  unfold hessianUpdate
  dsimp only
  rw [if_pos]
  unfold dotVar
  exact Finset.sum_eq_zero fun c _ => zero_mul _

end OrderRing

/-! ### C83: positive definiteness -/

section Pos
variable {K : Type} [Field K] [LinearOrder K] [IsStrictOrderedRing K]

/-- Keeping the entries between members of the same class preserves positive definiteness. -/
theorem spd_blocks {n : ℕ} {B C : Matrix (Fin n) (Fin n) K} (hB : SPD B) (cls : Fin n → ℕ) (hC : ∀ i j, C i j = if cls i = cls j then B i j else 0) :
    SPD C := by
  have hsym : ∀ i j, B j i = B i j := fun i j => congrFun (congrFun hB.1 i) j
  refine ⟨?_, fun x hx => ?_⟩
  · ext i j
    rw [Matrix.transpose_apply, hC, hC]
    by_cases h : cls i = cls j
    · rw [if_pos h, if_pos h.symm, hsym]
    · rw [if_neg h, if_neg (Ne.symm h)]
  · have key : x ⬝ᵥ C *ᵥ x = ∑ k ∈ Finset.univ.image cls, (fun i => if cls i = k then x i else 0) ⬝ᵥ B *ᵥ (fun i => if cls i = k then x i else 0) := by
      simp only [dotProduct, Matrix.mulVec, Finset.mul_sum]
      rw [Finset.sum_comm' (t' := Finset.univ) (s' := fun _ => Finset.univ.image cls) (by simp)]
      refine Finset.sum_congr rfl fun i _ => ?_
      rw [Finset.sum_comm]
      refine Finset.sum_congr rfl fun j _ => ?_
      rw [Finset.sum_eq_single_of_mem (cls i) (Finset.mem_image_of_mem _ (Finset.mem_univ i)), if_pos rfl, hC]
      · by_cases h : cls i = cls j
        · rw [if_pos h, if_pos h.symm]
        · rw [if_neg h, if_neg (Ne.symm h)]; ring
      · intro k _ hk
        rw [if_neg (Ne.symm hk), zero_mul]
    rw [key]
    obtain ⟨i, hi⟩ := Function.ne_iff.mp hx
    refine Finset.sum_pos' (fun k _ => hB.nonneg _) ⟨cls i, Finset.mem_image_of_mem _ (Finset.mem_univ i), hB.2 _ ?_⟩
    intro h0
    have := congrFun h0 i
    simp only [if_true, Pi.zero_apply] at this
    exact hi this

/-- On a positive definite matrix every nonzero step gives an update with a positive target curvature. -/
theorem target_pos {n : ℕ} {B : Matrix (Fin n) (Fin n) K} (hB : SPD B) {s : Fin n → K} (hs : s ≠ 0) (y : Fin n → K) : 0 < targetCurvature B s y := by
  have := hB.2 s hs
  unfold targetCurvature
  split_ifs with h
  · linarith
  · have := not_lt.1 h; linarith

/-- The sparse update on a positive definite matrix, for any dimensions: it succeeds, and the result consists of the linked entries of some
positive definite matrix. -/
theorem sparse_bfgs_step (d : Dims) (A : Approx K) (hX : 0 < d.NX) (hS : 1 ≤ d.S) (hN : 1 ≤ d.N) {H : Csc K} (hH : ReachH d A H) (hne : ¬ Empty H)
    (hspd : SPD (toMat d H)) {s : ℕ → K} (hs : fin d s ≠ 0) (y : ℕ → K) :
    ∃ H', hessianUpdate d H s y = some H' ∧ ∃ B', SPD B' ∧ ∀ r c : Fin d.VAR, H'.coeff r c = if Linked d r c then B' r c else 0 := by
  have ht := target_pos hspd hs (fin d y)
  obtain ⟨B', hB', hspd'⟩ := bfgs_keeps_spd ht hspd (fin d s) (fin d y)
  rcases sparse_bfgs d A hX hS hN hH hne s y hB' with ⟨h, -⟩ | ⟨H', e, h⟩
  · exact absurd h (lt_irrefl _)
  · exact ⟨H', e, B', hspd', fun r c => (h r c).1⟩

/-- **C83.** Without parameters, starting from a positive definite Hessian left by any history of evaluations, every sequence of sparse
updates with nonzero steps succeeds and keeps the matrix symmetric and positive definite. -/
theorem sparse_bfgs_spd (d : Dims) (A : Approx K) (hX : 0 < d.NX) (hS : 1 ≤ d.S) (hN : 1 ≤ d.N) (hP : d.NP = 0) (hist : List ((ℕ → K) × (ℕ → K)))
    (hs : ∀ p ∈ hist, fin d p.1 ≠ 0) {H : Csc K} (hH : ReachH d A H) (hne : ¬ Empty H) (hspd : SPD (toMat d H)) :
    ∃ H', hist.foldlM (fun H p => hessianUpdate d H p.1 p.2) H = some H' ∧ ReachH d A H' ∧ ¬ Empty H' ∧ SPD (toMat d H') := by
  induction hist generalizing H with
  | nil => exact ⟨H, rfl, hH, hne, hspd⟩
  | cons p rest ih =>
    obtain ⟨H1, e, B', hB', hv⟩ := sparse_bfgs_step d A hX hS hN hH hne hspd (hs p (List.mem_cons_self ..)) p.2
    have hr1 := ReachH.bfgs p.1 p.2 hH e
    have hne1 : ¬ Empty H1 := by
      obtain ⟨M, hM⟩ := (hH.inv hX hS hN).resolve_left hne
      obtain ⟨h0, r, sr, hp, hsr⟩ := hessianUpdate_some d e
      obtain ⟨H2, e2, h2⟩ := hessianUpdate_form d hM p.1 p.2 h0 hp hsr
      rw [e] at e2
      rw [Option.some.inj e2]
      exact h2.not_empty hX
    have h1 : SPD (toMat d H1) := spd_blocks hB' (fun i => nodeOf d i) fun i j => by
      show H1.coeff i j = _
      rw [hv]
      have hi := i.2
      have hj := j.2
      have hV : d.VAR = d.NX * d.NN + d.NU * d.NN + d.NP := rfl
      by_cases h : nodeOf d i = nodeOf d j
      · rw [if_pos h, if_pos (show Linked d i j from Or.inr (Or.inr h))]
      · rw [if_neg h, if_neg]
        unfold Linked
        push Not
        exact ⟨by omega, by omega, h⟩
    obtain ⟨H2, e2, rest'⟩ := ih (fun q hq => hs q (List.mem_cons_of_mem _ hq)) hr1 hne1 h1
    refine ⟨H2, ?_, rest'⟩
    rw [List.foldlM_cons, e]
    exact e2

end Pos

/-! ### Witnesses -/

/-- One of everything but constraints, one segment of order one. -/
def dims5 : Dims := ⟨1, 1, 1, 0, 1, 1⟩
instance : NeZero dims5.M := ⟨by decide⟩

/-- Running cost `(x² + u²) / 2`, terminal cost `p² / 2`, with exact second derivatives. -/
def cbs5 : Cbs dims5 ℚ where
  dyn _ _ y := y
  dynAD _ _ y := y
  dynAD2 _ _ y := y
  ineq _ _ y := y
  ineqAD _ _ y := y
  ineqAD2 _ _ y := y
  lag _ _ y := y
  lagAD _ _ y := y
  lagAD2 z _ _ := ⟨⟨(z 0 * z 0 + z 1 * z 1) / 2, fun i => if i.val = 0 then z 0 else if i.val = 1 then z 1 else 0⟩,
    fun i => ⟨if i.val = 0 then z 0 else if i.val = 1 then z 1 else 0, fun j => if i = j ∧ i.val < 2 then 1 else 0⟩⟩
  mayer _ _ y := y
  mayerAD _ _ y := y
  mayerAD2 z _ _ := ⟨⟨z 2 * z 2 / 2, fun i => if i.val = 2 then z 2 else 0⟩,
    fun i => ⟨if i.val = 2 then z 2 else 0, fun j => if i = j ∧ i.val = 2 then 1 else 0⟩⟩

/-- Horizon of length two. -/
def obj5 : Obj dims5 ℚ := ⟨0, 2, fun k => k, fun _ => ⟨0, fun _ => 0⟩, fun _ => ⟨0, fun _ => 0⟩, ⟨0, fun _ => 0⟩, ⟨⟨0, fun _ => 0⟩, fun _ => ⟨0, fun _ => 0⟩⟩⟩

theorem start5 : ((costHesSparse dims5 approx3 cbs5 obj5 (fun i => i) empty3.J).map fun s => decide (∀ r c : Fin 5, s.2.2.1.coeff r c = if r = c then (1 : ℚ) else 0))
    = some true := by decide +kernel

theorem update5 : ((costHesSparse dims5 approx3 cbs5 obj5 (fun i => i) empty3.J).bind fun s => (hessianUpdate dims5 s.2.2.1 (fun _ => 1) (fun _ => 20)).map fun H =>
    ∑ r ∈ Finset.range 5, ∑ c ∈ Finset.range 5, (if r = 4 then -3 else 1) * H.coeff r c * (if c = 4 then (-3 : ℚ) else 1)) = some (-68 / 5) := by decide +kernel

/-- **C83 (negative).** With a parameter a single sparse update can turn a positive definite matrix into an indefinite one, although step and
gradient change have positive curvature `s · y`: the starting matrix is the identity left by a first evaluation, the step is
`(1, 1, 1, 1, 1)` and the gradient change twenty times the step. The dense update keeps positive definiteness (C17). -/
theorem sparse_bfgs_indefinite : ∃ (d : Dims) (A : Approx ℚ) (H H' : Csc ℚ) (s y : ℕ → ℚ) (x : Fin d.VAR → ℚ), d.NP = 1 ∧ ReachH d A H ∧
    toMat d H = 1 ∧ 0 < fin d s ⬝ᵥ fin d y ∧ hessianUpdate d H s y = some H' ∧ x ⬝ᵥ toMat d H' *ᵥ x < 0 := by
  have h1 := start5
  rw [Option.map_eq_some_iff] at h1
  obtain ⟨⟨J, g, H, o'⟩, e, hc⟩ := h1
  have h2 := update5
  rw [e, Option.bind_some, Option.map_eq_some_iff] at h2
  obtain ⟨H', e', hq⟩ := h2
  have hE : Empty empty3.J := ⟨fun _ => rfl, fun _ => rfl⟩
  have hw : Writes dims5 cbs5 obj5 (fun i => (i : ℚ)) := ⟨fun k => cbs5.lagAD2 (node dims5 (fun i => (i : ℚ)) k) (obj5.time k) (zero2 _), fun k _ old => rfl⟩
  refine ⟨dims5, approx3, H, H', fun _ => 1, fun _ => 20, fun i => if i.val = 4 then -3 else 1, rfl, ReachH.cost cbs5 obj5 o' _ J g (ReachH.init hE) hw e,
    ?_, ?_, e', ?_⟩
  · ext r c
    have := of_decide_eq_true hc r c
    show H.coeff r c = _
    rw [Matrix.one_apply]
    by_cases h : r = c
    · rw [if_pos h]; exact this.trans (if_pos h)
    · rw [if_neg h]; exact this.trans (if_neg h)
  · rw [← dot_fin]; decide +kernel
  · have : (fun i : Fin dims5.VAR => if i.val = 4 then (-3 : ℚ) else 1) ⬝ᵥ toMat dims5 H' *ᵥ (fun i : Fin dims5.VAR => if i.val = 4 then (-3 : ℚ) else 1)
        = -68 / 5 := by
      rw [← hq]
      simp only [dotProduct, Matrix.mulVec, toMat, Matrix.of_apply, Finset.mul_sum]
      rw [← Fin.sum_univ_eq_sum_range (fun r => ∑ c ∈ Finset.range 5, (if r = 4 then -3 else 1) * H'.coeff r c * (if c = 4 then (-3 : ℚ) else 1)) 5]
      refine Finset.sum_congr rfl fun r _ => ?_
      rw [← Fin.sum_univ_eq_sum_range (fun c => (if r.val = 4 then -3 else 1) * H'.coeff r c * (if c = 4 then (-3 : ℚ) else 1)) 5]
      exact Finset.sum_congr rfl fun c _ => (mul_assoc _ _ _).symm
    rw [this]; norm_num

/-- Two nodes, one state. -/
def dims6 : Dims := ⟨1, 0, 0, 0, 1, 1⟩
instance : NeZero dims6.M := ⟨by decide⟩
def cbs6 : Cbs dims6 ℚ where
  dyn _ _ y := y
  dynAD _ _ y := y
  dynAD2 _ _ y := y
  ineq _ _ y := y
  ineqAD _ _ y := y
  ineqAD2 _ _ y := y
  lag _ _ y := y
  lagAD _ _ y := y
  lagAD2 z _ _ := ⟨⟨z 0 * z 0 / 2, fun _ => z 0⟩, fun i => ⟨z 0, fun j => 1⟩⟩
  mayer _ _ y := y
  mayerAD _ _ y := y
  mayerAD2 _ _ y := y
def obj6 : Obj dims6 ℚ := ⟨0, 2, fun k => k, fun _ => ⟨0, fun _ => 0⟩, fun _ => ⟨0, fun _ => 0⟩, ⟨0, fun _ => 0⟩, ⟨⟨0, fun _ => 0⟩, fun _ => ⟨0, fun _ => 0⟩⟩⟩

/-- Non-vacuity of C46 and C83: from the identity, step `(1, 1)` and gradient change `(1, 3)`. The entries are those of the dense result, but
the new matrix maps the step to `(3/4, 11/4)`: the secant equation of the dense update (C18) does not hold. -/
example : ((costHesSparse dims6 approx3 cbs6 obj6 (fun i => i) empty3.J).bind fun s =>
    (hessianUpdate dims6 s.2.2.1 (fun _ => 1) (fun i => if i = 0 then 1 else 3)).map fun H =>
      (H.coeff 0 0, H.coeff 0 1, H.coeff 1 0, H.coeff 1 1, mulVec dims6 H (fun _ => 1) 0, mulVec dims6 H (fun _ => 1) 1))
    = some ((3 : ℚ) / 4, 0, 0, 11 / 4, 3 / 4, 11 / 4) := by decide +kernel

end PolyMPC.Ocp
