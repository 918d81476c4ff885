import Verif.Lemmas.QP
import Mathlib.LinearAlgebra.Matrix.DotProduct
import Mathlib.Algebra.BigOperators.Fin
import Mathlib.Tactic.Linarith
import Mathlib.Tactic.Ring
import Mathlib.Tactic.FieldSimp
import Mathlib.Analysis.Normed.Field.Basic
import Mathlib.Topology.Order.Compact
import Mathlib.Topology.Algebra.Order.Field
import Mathlib.Topology.MetricSpace.Bounded
import Mathlib.Data.Real.Basic

/-!
# Feasible quadratic programs have optimality certificates
-/

namespace PolyMPC.Spec
open Matrix

section Farkas
variable {K : Type*} [Field K] [LinearOrder K] [IsStrictOrderedRing K] {n : Type*} [Fintype n]

/-- Farkas' lemma: `b` is a nonnegative combination of finitely many vectors, or a direction separates it from them. -/
theorem farkas (m : ℕ) : ∀ (a : Fin m → n → K) (b : n → K),
    (∃ μ : Fin m → K, (∀ j, 0 ≤ μ j) ∧ b = ∑ j, μ j • a j) ∨ ∃ d : n → K, (∀ j, 0 ≤ a j ⬝ᵥ d) ∧ b ⬝ᵥ d < 0 := by
  induction m with
  | zero =>
    intro a b
    by_cases hb : b = 0
    · exact Or.inl ⟨0, fun j => le_rfl, by rw [hb]; simp⟩
    · refine Or.inr ⟨-b, fun j => j.elim0, ?_⟩
      rw [dotProduct_neg, neg_lt_zero]
      exact lt_of_le_of_ne (Finset.sum_nonneg fun i _ => mul_self_nonneg _) (Ne.symm fun h => hb (dotProduct_self_eq_zero.1 h))
  | succ m ih =>
    intro a b
    rcases ih (fun j => a j.succ) b with ⟨μ, h1, h2⟩ | ⟨d, h1, h2⟩
    · refine Or.inl ⟨Fin.cons 0 μ, fun j => ?_, ?_⟩
      · refine Fin.cases ?_ (fun j => ?_) j
        · exact le_rfl
        · rw [Fin.cons_succ]; exact h1 j
      · rw [Fin.sum_univ_succ, Fin.cons_zero, zero_smul, zero_add, h2]
        simp only [Fin.cons_succ]
    · rcases le_or_gt 0 (a 0 ⬝ᵥ d) with h0 | h0
      · refine Or.inr ⟨d, fun j => ?_, h2⟩
        exact Fin.cases h0 h1 j
      · rcases ih (fun j => (a j.succ ⬝ᵥ d) • a 0 - (a 0 ⬝ᵥ d) • a j.succ) ((b ⬝ᵥ d) • a 0 - (a 0 ⬝ᵥ d) • b) with ⟨μ, g1, g2⟩ | ⟨e, g1, g2⟩
        · left
          set t := a 0 ⬝ᵥ d with ht
          refine ⟨Fin.cons ((∑ j, μ j * (a j.succ ⬝ᵥ d) - b ⬝ᵥ d) / (-t)) μ, fun j => ?_, ?_⟩
          · refine Fin.cases ?_ (fun j => ?_) j
            · rw [Fin.cons_zero]
              refine div_nonneg ?_ (by linarith)
              have : 0 ≤ ∑ j, μ j * (a j.succ ⬝ᵥ d) := Finset.sum_nonneg fun j _ => mul_nonneg (g1 j) (h1 j)
              linarith
            · rw [Fin.cons_succ]; exact g1 j
          · funext i
            have := congrFun g2 i
            simp only [Pi.sub_apply, Pi.smul_apply, smul_eq_mul, Finset.sum_apply] at this
            rw [Fin.sum_univ_succ, Fin.cons_zero]
            simp only [Fin.cons_succ, Pi.add_apply, Pi.smul_apply, smul_eq_mul, Finset.sum_apply]
            have hs : ∑ j, μ j * ((a j.succ ⬝ᵥ d) * a 0 i - t * a j.succ i) = (∑ j, μ j * (a j.succ ⬝ᵥ d)) * a 0 i - t * ∑ j, μ j * a j.succ i := by
              rw [Finset.sum_mul, Finset.mul_sum, ← Finset.sum_sub_distrib]
              exact Finset.sum_congr rfl fun j _ => by ring
            rw [hs] at this
            have ht0 : t ≠ 0 := ne_of_lt h0
            field_simp
            linarith
        · right
          refine ⟨(a 0 ⬝ᵥ e) • d - (a 0 ⬝ᵥ d) • e, fun j => ?_, ?_⟩
          · refine Fin.cases ?_ (fun j => ?_) j
            · rw [dotProduct_sub, dotProduct_smul, dotProduct_smul, smul_eq_mul, smul_eq_mul]
              apply le_of_eq; ring
            · have := g1 j
              rw [sub_dotProduct, smul_dotProduct, smul_dotProduct, smul_eq_mul, smul_eq_mul] at this
              rw [dotProduct_sub, dotProduct_smul, dotProduct_smul, smul_eq_mul, smul_eq_mul]
              linarith
          · rw [sub_dotProduct, smul_dotProduct, smul_dotProduct, smul_eq_mul, smul_eq_mul] at g2
            rw [dotProduct_sub, dotProduct_smul, dotProduct_smul, smul_eq_mul, smul_eq_mul]
            linarith

/-- The same with any finite index type. -/
theorem farkas' {ι : Type*} [Fintype ι] (a : ι → n → K) (b : n → K) :
    (∃ μ : ι → K, (∀ j, 0 ≤ μ j) ∧ b = ∑ j, μ j • a j) ∨ ∃ d : n → K, (∀ j, 0 ≤ a j ⬝ᵥ d) ∧ b ⬝ᵥ d < 0 := by
  let e := Fintype.equivFin ι
  rcases farkas _ (fun j => a (e.symm j)) b with ⟨μ, h1, h2⟩ | ⟨d, h1, h2⟩
  · refine Or.inl ⟨fun i => μ (e i), fun i => h1 _, ?_⟩
    rw [h2, ← e.sum_comp]
    simp only [Equiv.symm_apply_apply]
  · exact Or.inr ⟨d, fun i => by have := h1 (e i); rwa [Equiv.symm_apply_apply] at this, h2⟩

end Farkas

namespace QP

section Field
variable {K : Type*} [Field K] [LinearOrder K] [IsStrictOrderedRing K] {N M : ℕ} {qp : QP K N M}

/-- The matrix of `rows`. -/
abbrev rowMat (qp : QP K N M) : Matrix (Fin M ⊕ Fin N) (Fin N) K := Matrix.fromRows qp.A (1 : Matrix (Fin N) (Fin N) K)

/-- An infeasible program has a certificate: weights of the rows that vanish on every `(A x, x)` but are bounded away from zero on the bounds. -/
theorem infeasible_certificate (hinf : ¬ ∃ x, qp.Feasible x) :
    ∃ (y : Fin M ⊕ Fin N → K) (c : K), 0 < c ∧ (∀ x, y ⬝ᵥ qp.rows x = 0) ∧
      ∀ z, (∀ i, qp.lower i ≤ z i ∧ z i ≤ qp.upper i) → y ⬝ᵥ z ≤ -c := by
  classical
  rcases farkas' (ι := (Fin N ⊕ Fin N) ⊕ ((Fin M ⊕ Fin N) ⊕ (Fin M ⊕ Fin N)))
    (Sum.elim (Sum.elim (fun j => Sum.elim (fun i => qp.rowMat i j) (fun i => -qp.rowMat i j))
      (fun j => Sum.elim (fun i => -qp.rowMat i j) (fun i => qp.rowMat i j)))
      (fun r => Pi.single r (1 : K))) (Sum.elim qp.upper (-qp.lower)) with ⟨μ, h1, h2⟩ | ⟨d, h1, h2⟩
  · exfalso
    refine hinf ⟨fun j => μ (Sum.inl (Sum.inl j)) - μ (Sum.inl (Sum.inr j)), (feasible_iff _ _).2 fun i => ?_⟩
    have hr : qp.rows (fun j => μ (Sum.inl (Sum.inl j)) - μ (Sum.inl (Sum.inr j))) i
        = ∑ j, μ (Sum.inl (Sum.inl j)) * qp.rowMat i j - ∑ j, μ (Sum.inl (Sum.inr j)) * qp.rowMat i j := by
      rw [rows_eq]
      unfold mulVec dotProduct
      rw [← Finset.sum_sub_distrib]
      exact Finset.sum_congr rfl fun j _ => by ring
    have hu := congrFun h2 (Sum.inl i)
    have hl := congrFun h2 (Sum.inr i)
    rw [Finset.sum_apply, Fintype.sum_sum_type, Fintype.sum_sum_type] at hu hl
    simp only [Sum.elim_inl, Sum.elim_inr, Pi.smul_apply, smul_eq_mul, Pi.single_apply, mul_ite, mul_one, mul_zero,
      Finset.sum_ite_eq, Finset.mem_univ, if_true, mul_neg, Finset.sum_neg_distrib, Pi.neg_apply] at hu hl
    have g1 := h1 (Sum.inr (Sum.inl i))
    have g2 := h1 (Sum.inr (Sum.inr i))
    rw [hr]
    constructor <;> linarith
  · have hd : ∀ r, 0 ≤ d r := fun r => by
      have := h1 (Sum.inr r)
      simpa only [Sum.elim_inr, single_dotProduct, one_mul] using this
    refine ⟨fun i => d (Sum.inl i) - d (Sum.inr i), -(Sum.elim qp.upper (-qp.lower) ⬝ᵥ d), by linarith, fun x => ?_, fun z hz => ?_⟩
    · rw [← adjoint_dot]
      have : (Matrix.fromRows qp.A (1 : Matrix (Fin N) (Fin N) K))ᵀ *ᵥ (fun i => d (Sum.inl i) - d (Sum.inr i)) = 0 := by
        funext j
        have e1 := h1 (Sum.inl (Sum.inl j))
        have e2 := h1 (Sum.inl (Sum.inr j))
        unfold mulVec dotProduct
        unfold dotProduct at e1 e2
        rw [Fintype.sum_sum_type] at e1 e2
        simp only [Sum.elim_inl, Sum.elim_inr, neg_mul, Finset.sum_neg_distrib] at e1 e2
        have e3 : ∑ i, (Matrix.fromRows qp.A (1 : Matrix (Fin N) (Fin N) K))ᵀ j i * (d (Sum.inl i) - d (Sum.inr i))
            = ∑ i, qp.rowMat i j * d (Sum.inl i) - ∑ i, qp.rowMat i j * d (Sum.inr i) := by
          rw [← Finset.sum_sub_distrib]
          exact Finset.sum_congr rfl fun i _ => by rw [transpose_apply, mul_sub]
        rw [e3, Pi.zero_apply]
        linarith
      rw [this, zero_dotProduct]
    · rw [neg_neg]
      unfold dotProduct
      rw [Fintype.sum_sum_type (f := fun i => Sum.elim qp.upper (-qp.lower) i * d i), ← Finset.sum_add_distrib]
      refine Finset.sum_le_sum fun i _ => ?_
      simp only [Sum.elim_inl, Sum.elim_inr, Pi.neg_apply]
      have g1 := mul_le_mul_of_nonneg_right (hz i).2 (hd (Sum.inl i))
      have g2 := mul_le_mul_of_nonneg_right (hz i).1 (hd (Sum.inr i))
      linarith

/-- The rows of an infeasible program stay a fixed distance away from every vector within the bounds. -/
theorem infeasible_gap (hinf : ¬ ∃ x, qp.Feasible x) :
    ∃ δ : K, 0 < δ ∧ ∀ x z, (∀ i, qp.lower i ≤ z i ∧ z i ≤ qp.upper i) → δ ≤ infNorm (qp.rows x - z) := by
  obtain ⟨y, c, hc, h1, h2⟩ := infeasible_certificate hinf
  have hn : 0 ≤ oneNorm y := Finset.sum_nonneg fun _ _ => abs_nonneg _
  refine ⟨c / (1 + oneNorm y), div_pos hc (by linarith), fun x z hz => ?_⟩
  have h3 : c ≤ y ⬝ᵥ (qp.rows x - z) := by rw [dotProduct_sub, h1]; linarith [h2 z hz]
  have h4 : y ⬝ᵥ (qp.rows x - z) ≤ oneNorm y * infNorm (qp.rows x - z) := by
    unfold dotProduct oneNorm
    rw [Finset.sum_mul]
    refine Finset.sum_le_sum fun i _ => (le_abs_self _).trans ?_
    rw [abs_mul]
    exact mul_le_mul_of_nonneg_left (le_infNorm _ i) (abs_nonneg _)
  rw [div_le_iff₀ (by linarith)]
  nlinarith [infNorm_nonneg (qp.rows x - z)]

/-- Moving a little along `d` keeps an inequality that is strict or along which `d` does not point outwards. -/
theorem small_step {ι : Type*} [Finite ι] (a b : ι → K) (h : ∀ i, 0 < a i ∨ (0 ≤ a i ∧ 0 ≤ b i)) :
    ∃ t : K, 0 < t ∧ ∀ s, 0 ≤ s → s ≤ t → ∀ i, 0 ≤ a i + s * b i := by
  classical
  have := Fintype.ofFinite ι
  have key : ∀ S : Finset ι, ∃ t : K, 0 < t ∧ ∀ s, 0 ≤ s → s ≤ t → ∀ i ∈ S, 0 ≤ a i + s * b i := by
    intro S
    induction S using Finset.induction_on with
    | empty => exact ⟨1, one_pos, fun _ _ _ i hi => absurd hi (Finset.notMem_empty i)⟩
    | insert j S hj ih =>
      obtain ⟨t, ht, h1⟩ := ih
      rcases h j with hp | ⟨hp, hq⟩
      · refine ⟨min t (a j / (1 + |b j|)), lt_min ht (div_pos hp (by positivity)), fun s h0 hs i hi => ?_⟩
        rcases Finset.mem_insert.1 hi with rfl | hi
        · have : s * (1 + |b i|) ≤ a i := (le_div_iff₀ (by positivity)).1 (hs.trans (min_le_right _ _))
          have h2 := mul_le_mul_of_nonneg_left (neg_abs_le (b i)) h0
          nlinarith
        · exact h1 s h0 (hs.trans (min_le_left _ _)) i hi
      · refine ⟨t, ht, fun s h0 hs i hi => ?_⟩
        rcases Finset.mem_insert.1 hi with rfl | hi
        · have := mul_nonneg h0 hq
          linarith
        · exact h1 s h0 hs i hi
  obtain ⟨t, ht, h1⟩ := key Finset.univ
  exact ⟨t, ht, fun s h0 hs i => h1 s h0 hs i (Finset.mem_univ i)⟩

theorem objective_line (hsym : qp.Hᵀ = qp.H) (x d : Fin N → K) (t : K) :
    qp.objective (x + t • d) = qp.objective x + t * ((qp.H *ᵥ x + qp.h) ⬝ᵥ d) + t ^ 2 * (1 / 2 * (d ⬝ᵥ qp.H *ᵥ d)) := by
  unfold objective
  have hs := dot_symm hsym x d
  simp only [mulVec_add, mulVec_smul, dotProduct_add, add_dotProduct, dotProduct_smul, smul_dotProduct, smul_eq_mul]
  rw [hs, dotProduct_comm (qp.H *ᵥ x) d]
  ring

/-- A minimiser of a quadratic program (convex or not) has multipliers. -/
theorem kkt_of_minimiser (hsym : qp.Hᵀ = qp.H) {x : Fin N → K} (hx : qp.Feasible x)
    (hmin : ∀ w, qp.Feasible w → qp.objective x ≤ qp.objective w) : ∃ y, qp.KKT x y := by
  classical
  have hfx := (feasible_iff _ _).1 hx
  set up : Fin M ⊕ Fin N → K := fun i => if qp.rows x i = qp.upper i then 1 else 0 with hup
  set lo : Fin M ⊕ Fin N → K := fun i => if qp.rows x i = qp.lower i then 1 else 0 with hlo
  rcases farkas' (ι := (Fin M ⊕ Fin N) ⊕ (Fin M ⊕ Fin N))
    (Sum.elim (fun i => up i • qp.rowMat i) (fun i => -(lo i • qp.rowMat i))) (-(qp.H *ᵥ x + qp.h)) with ⟨μ, h1, h2⟩ | ⟨d, h1, h2⟩
  · refine ⟨fun i => μ (Sum.inl i) * up i - μ (Sum.inr i) * lo i, ?_, fun i => ⟨hfx i, fun h => ?_, fun h => ?_⟩⟩
    · rw [lagrangianGradient_eq]
      funext j
      have := congrFun h2 j
      rw [Fintype.sum_sum_type] at this
      simp only [Sum.elim_inl, Sum.elim_inr, Pi.add_apply, Finset.sum_apply, Pi.smul_apply, Pi.neg_apply, smul_eq_mul, mul_neg, Finset.sum_neg_distrib] at this
      have e : ((Matrix.fromRows qp.A (1 : Matrix (Fin N) (Fin N) K))ᵀ *ᵥ fun i => μ (Sum.inl i) * up i - μ (Sum.inr i) * lo i) j
          = ∑ i, μ (Sum.inl i) * (up i * qp.rowMat i j) - ∑ i, μ (Sum.inr i) * (lo i * qp.rowMat i j) := by
        unfold mulVec dotProduct
        rw [← Finset.sum_sub_distrib]
        exact Finset.sum_congr rfl fun i _ => by beta_reduce; rw [transpose_apply]; ring
      rw [Pi.add_apply, Pi.add_apply, e, Pi.zero_apply]
      linarith
    · by_contra hne
      have : up i = 0 := if_neg hne
      beta_reduce at h
      rw [this, mul_zero, zero_sub] at h
      have h3 : 0 ≤ μ (Sum.inr i) * lo i := mul_nonneg (h1 _) (by rw [hlo]; dsimp only; split_ifs <;> norm_num)
      linarith
    · by_contra hne
      have : lo i = 0 := if_neg hne
      beta_reduce at h
      rw [this, mul_zero, sub_zero] at h
      have h3 : 0 ≤ μ (Sum.inl i) * up i := mul_nonneg (h1 _) (by rw [hup]; dsimp only; split_ifs <;> norm_num)
      linarith
  · exfalso
    rw [neg_dotProduct, neg_lt_zero] at h2
    have hrd : ∀ i, qp.rows (-d) i = -(qp.rowMat i ⬝ᵥ d) := fun i => by
      rw [rows_eq, mulVec_neg]; rfl
    -- `-d` is a feasible direction of descent
    have hu : ∀ i, qp.rows x i = qp.upper i → 0 ≤ -qp.rows (-d) i := fun i hi => by
      have := h1 (Sum.inl i)
      have e : up i = 1 := if_pos hi
      simp only [Sum.elim_inl, e, one_smul] at this
      rw [hrd, neg_neg]; exact this
    have hl : ∀ i, qp.rows x i = qp.lower i → 0 ≤ qp.rows (-d) i := fun i hi => by
      have := h1 (Sum.inr i)
      have e : lo i = 1 := if_pos hi
      simp only [Sum.elim_inr, e, one_smul] at this
      rw [neg_dotProduct] at this
      rw [hrd]; exact this
    obtain ⟨t1, ht1, g1⟩ := small_step (fun i => qp.upper i - qp.rows x i) (fun i => -qp.rows (-d) i) (fun i => by
      rcases eq_or_lt_of_le (hfx i).2 with h | h
      · exact Or.inr ⟨by linarith, hu i h⟩
      · exact Or.inl (by linarith))
    obtain ⟨t2, ht2, g2⟩ := small_step (fun i => qp.rows x i - qp.lower i) (fun i => qp.rows (-d) i) (fun i => by
      rcases eq_or_lt_of_le (hfx i).1 with h | h
      · exact Or.inr ⟨by linarith, hl i h.symm⟩
      · exact Or.inl (by linarith))
    set g := (qp.H *ᵥ x + qp.h) ⬝ᵥ d with hg
    set q := 1 / 2 * ((-d) ⬝ᵥ qp.H *ᵥ (-d)) with hq
    set t := min (min t1 t2) (g / (1 + |q|)) with ht
    have ht0 : 0 < t := lt_min (lt_min ht1 ht2) (div_pos h2 (by positivity))
    have hfe : qp.Feasible (x + t • (-d)) := by
      rw [feasible_iff]
      intro i
      have e : qp.rows (x + t • (-d)) i = qp.rows x i + t * qp.rows (-d) i := by
        rw [rows_eq, rows_eq, rows_eq, mulVec_add, mulVec_smul]; rfl
      have a1 := g1 t ht0.le ((min_le_left _ _).trans (min_le_left _ _)) i
      have a2 := g2 t ht0.le ((min_le_left _ _).trans (min_le_right _ _)) i
      rw [e]
      constructor <;> linarith
    have h5 := hmin _ hfe
    rw [objective_line hsym, dotProduct_neg, ← hg, ← hq] at h5
    have h6 : t * (1 + |q|) ≤ g := (le_div_iff₀ (by positivity)).1 (min_le_right _ _)
    have h7 := mul_le_mul_of_nonneg_left h6 ht0.le
    have h8 := mul_le_mul_of_nonneg_left (le_abs_self q) (sq_nonneg t)
    have h9 : 0 < t ^ 2 := by positivity
    nlinarith

end Field

section Real
variable {N M : ℕ} {qp : QP ℝ N M}

/-- Every feasible program has a minimiser: the variable bounds make the feasible set compact. -/
theorem exists_minimiser (hf : ∃ x, qp.Feasible x) :
    ∃ x, qp.Feasible x ∧ ∀ w, qp.Feasible w → qp.objective x ≤ qp.objective w := by
  have hc : Continuous qp.objective := by
    unfold objective dotProduct mulVec dotProduct
    fun_prop
  have hcl : IsClosed {x | qp.Feasible x} := by
    have e : {x | qp.Feasible x} = (⋂ i, {x | qp.lower i ≤ qp.rows x i}) ∩ ⋂ i, {x | qp.rows x i ≤ qp.upper i} := by
      ext x
      simp only [Set.mem_ofPred_eq, Set.mem_inter_iff, Set.mem_iInter, feasible_iff]
      exact forall_and
    have hr : ∀ i, Continuous fun x => qp.rows x i := fun i => by
      simp only [rows_eq]
      unfold mulVec dotProduct
      fun_prop
    rw [e]
    exact (isClosed_iInter fun i => isClosed_le continuous_const (hr i)).inter (isClosed_iInter fun i => isClosed_le (hr i) continuous_const)
  have hcomp : IsCompact {x | qp.Feasible x} :=
    (isCompact_univ_pi fun i => isCompact_Icc (a := qp.xlb i) (b := qp.xub i)).of_isClosed_subset hcl
      fun x hx i _ => hx.2 i
  obtain ⟨x, hx, h⟩ := hcomp.exists_isMinOn hf hc.continuousOn
  exact ⟨x, hx, fun w hw => h hw⟩

/-- A program with symmetric Hessian has a KKT point exactly if it is feasible. -/
theorem exists_kkt_iff (hsym : qp.Hᵀ = qp.H) : (∃ x y, qp.KKT x y) ↔ ∃ x, qp.Feasible x := by
  constructor
  · rintro ⟨x, y, h⟩
    exact ⟨x, (feasible_iff _ _).2 fun i => (h.2 i).1⟩
  · intro hf
    obtain ⟨x, hx, hm⟩ := exists_minimiser hf
    exact ⟨x, kkt_of_minimiser hsym hx hm⟩

end Real
end QP
end PolyMPC.Spec
