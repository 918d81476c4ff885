import Verif.Lemmas.Ocp
import Verif.Lemmas.AutoDiff

/-! # Derivatives of functions of the nodes -/

namespace PolyMPC.Ocp
open AD Spec Filter Topology

set_option linter.unusedSectionVars false

variable {n : ℕ} {f g : (Fin n → ℝ) → ℝ} {v w x : Fin n → ℝ}

theorem gradMap_sum {ι : Type*} (s : Finset ι) (u : ι → Fin n → ℝ) : gradMap (fun c => ∑ i ∈ s, u i c) = ∑ i ∈ s, gradMap (u i) := by
  ext z
  simp only [gradMap_apply, Finset.sum_mul, _root_.sum_apply]
  exact Finset.sum_comm

theorem IsGradient.add' (hf : IsGradient f v x) (hg : IsGradient g w x) : IsGradient (fun z => f z + g z) (fun c => v c + w c) x := by
  unfold IsGradient; rw [gradMap_add]; exact HasFDerivAt.add hf hg

theorem IsGradient.sub' (hf : IsGradient f v x) (hg : IsGradient g w x) : IsGradient (fun z => f z - g z) (fun c => v c - w c) x := by
  unfold IsGradient; rw [gradMap_sub]; exact HasFDerivAt.sub hf hg

theorem IsGradient.smul' (a : ℝ) (hf : IsGradient f v x) : IsGradient (fun z => a * f z) (fun c => a * v c) x := by
  unfold IsGradient
  have : (fun c => a * v c) = fun c => v c * a := by funext c; ring
  rw [this, gradMap_mul]; exact HasFDerivAt.const_mul hf a

theorem IsGradient.mul_const' (a : ℝ) (hf : IsGradient f v x) : IsGradient (fun z => f z * a) (fun c => v c * a) x := by
  simpa only [mul_comm] using IsGradient.smul' a hf

theorem IsGradient.sum' {ι : Type*} (s : Finset ι) {F : ι → (Fin n → ℝ) → ℝ} {u : ι → Fin n → ℝ} (h : ∀ i ∈ s, IsGradient (F i) (u i) x) :
    IsGradient (fun z => ∑ i ∈ s, F i z) (fun c => ∑ i ∈ s, u i c) x := by
  unfold IsGradient; rw [gradMap_sum]; exact HasFDerivAt.fun_sum h

theorem isGradient_const (a : ℝ) (x : Fin n → ℝ) : IsGradient (fun _ => a) (fun _ => 0) x := by
  unfold IsGradient; rw [gradMap_zero]; exact hasFDerivAt_const _ _

theorem isGradient_ext {p : ℕ} (hp : p < n) (x : Fin n → ℝ) : IsGradient (fun z => ext z p) (fun c => if p = c then 1 else 0) x := by
  unfold IsGradient
  have e : (fun c : Fin n => if p = c then (1 : ℝ) else 0) = fun j => if j = ⟨p, hp⟩ then 1 else 0 := by
    funext c
    by_cases h : c = ⟨p, hp⟩
    · subst h; simp
    · rw [if_neg h, if_neg]; intro h'; apply h; exact Fin.ext h'.symm
  rw [e, gradMap_unit]
  have : (fun z : Fin n → ℝ => ext z p) = fun z => z ⟨p, hp⟩ := by funext z; unfold ext; rw [dif_pos hp]
  rw [this]; exact hasFDerivAt_apply _ x

theorem derAt_eq {m : ℕ} (a : Dual m ℝ) : derAt a = ext a.der := rfl

theorem node_ext (d : Dims) (x : Fin d.VAR → ℝ) {k : ℕ} (hk : k < d.NN) :
    node d (ext x) k = fun i : Fin d.M => x ⟨nodeIdx d k i, nodeIdx_lt d hk i.2⟩ := by
  funext i; rw [node_eq]; unfold ext; rw [dif_pos]

theorem node_continuous (d : Dims) {k : ℕ} (hk : k < d.NN) : Continuous fun x : Fin d.VAR → ℝ => node d (ext x) k := by
  have : (fun x : Fin d.VAR → ℝ => node d (ext x) k) = fun x (i : Fin d.M) => x ⟨nodeIdx d k i, nodeIdx_lt d hk i.2⟩ := by
    funext x; exact node_ext d x hk
  rw [this]; fun_prop

/-- Chain rule for a function of the variables of one node. -/
theorem isGradient_node (d : Dims) {k : ℕ} (hk : k < d.NN) {f : (Fin d.M → ℝ) → ℝ} {u : Fin d.M → ℝ} {x : Fin d.VAR → ℝ}
    (h : IsGradient f u (node d (ext x) k)) : IsGradient (fun z => f (node d (ext z) k)) (fun c => scatter d k (ext u) c) x := by
  have hn : HasFDerivAt (fun z : Fin d.VAR → ℝ => node d (ext z) k)
      (ContinuousLinearMap.pi fun i : Fin d.M => ContinuousLinearMap.proj (R := ℝ) (φ := fun _ : Fin d.VAR => ℝ) ⟨nodeIdx d k i, nodeIdx_lt d hk i.2⟩) x := by
    have e : (fun z : Fin d.VAR → ℝ => node d (ext z) k) = fun z (i : Fin d.M) => z ⟨nodeIdx d k i, nodeIdx_lt d hk i.2⟩ := by
      funext z; exact node_ext d z hk
    rw [e]
    exact hasFDerivAt_pi.2 fun i => hasFDerivAt_apply _ x
  have h' : HasFDerivAt f (gradMap u) ((fun z : Fin d.VAR → ℝ => node d (ext z) k) x) := h
  refine HasFDerivAt.congr_fderiv (HasFDerivAt.comp x h' hn) ?_
  ext z
  simp only [ContinuousLinearMap.comp_apply, gradMap_apply, ContinuousLinearMap.pi_apply, ContinuousLinearMap.proj_apply]
  unfold scatter
  simp only [Finset.sum_mul]
  rw [Finset.sum_comm, Finset.sum_range]
  refine Finset.sum_congr rfl fun i _ => ?_
  rw [Finset.sum_eq_single ⟨nodeIdx d k i, nodeIdx_lt d hk i.2⟩]
  · simp only [if_true]; unfold ext; rw [dif_pos i.2]
  · intro c _ hc
    rw [if_neg, zero_mul]; intro h'; apply hc; exact Fin.ext h'.symm
  · intro h'; exact absurd (Finset.mem_univ _) h'

/-! ### Second derivatives -/

theorem IsHessian.add' {H G : Fin n → Fin n → ℝ} (hf : IsHessian f H x) (hg : IsHessian g G x) :
    IsHessian (fun z => f z + g z) (fun r c => H r c + G r c) x := by
  obtain ⟨a, ha, ha'⟩ := hf
  obtain ⟨b, hb, hb'⟩ := hg
  refine ⟨fun z c => a z c + b z c, ?_, fun i => IsGradient.add' (ha' i) (hb' i)⟩
  filter_upwards [ha, hb] with z h1 h2 using IsGradient.add' h1 h2

theorem IsHessian.smul' {H : Fin n → Fin n → ℝ} (a : ℝ) (hf : IsHessian f H x) : IsHessian (fun z => a * f z) (fun r c => a * H r c) x := by
  obtain ⟨b, hb, hb'⟩ := hf
  refine ⟨fun z c => a * b z c, ?_, fun i => IsGradient.smul' a (hb' i)⟩
  filter_upwards [hb] with z h1 using IsGradient.smul' a h1

theorem isHessian_affine {f : (Fin n → ℝ) → ℝ} {u : Fin n → ℝ} (h : ∀ z, IsGradient f u z) (x : Fin n → ℝ) :
    IsHessian f (fun _ _ => 0) x :=
  ⟨fun _ => u, Eventually.of_forall h, fun i => isGradient_const (u i) x⟩

theorem IsHessian.sum' {ι : Type*} (s : Finset ι) {F : ι → (Fin n → ℝ) → ℝ} {H : ι → Fin n → Fin n → ℝ} (h : ∀ i ∈ s, IsHessian (F i) (H i) x) :
    IsHessian (fun z => ∑ i ∈ s, F i z) (fun r c => ∑ i ∈ s, H i r c) x := by
  classical
  induction s using Finset.induction_on with
  | empty => simpa using isHessian_affine (isGradient_const 0) x
  | insert i s hi ih =>
    simp only [Finset.sum_insert hi]
    exact IsHessian.add' (h i (Finset.mem_insert_self i s)) (ih fun j hj => h j (Finset.mem_insert_of_mem hj))

theorem scatter2_comm (d : Dims) (k : ℕ) (h : ℕ → ℕ → ℝ) (r c : ℕ) :
    scatter2 d k h r c = scatter d k (fun j => scatter d k (fun i => h i j) r) c := by
  unfold scatter2 scatter
  have e : ∀ (p : Prop) [Decidable p] (f : ℕ → ℝ), (if p then ∑ j ∈ Finset.range d.M, f j else 0) = ∑ j ∈ Finset.range d.M, if p then f j else 0 := by
    intro p _ f; split_ifs <;> simp
  simp only [e]
  rw [Finset.sum_comm]
  refine Finset.sum_congr rfl fun j _ => Finset.sum_congr rfl fun i _ => ?_
  split_ifs <;> rfl

theorem isHessian_node (d : Dims) {k : ℕ} (hk : k < d.NN) {f : (Fin d.M → ℝ) → ℝ} {H : Fin d.M → Fin d.M → ℝ} {x : Fin d.VAR → ℝ}
    (h : IsHessian f H (node d (ext x) k)) :
    IsHessian (fun z => f (node d (ext z) k)) (fun r c => scatter2 d k (fun i j => ext (fun i => ext (H i) j) i) r c) x := by
  obtain ⟨g, hg, hg'⟩ := h
  refine ⟨fun z c => scatter d k (ext (g (node d (ext z) k))) c, ?_, fun c => ?_⟩
  · have := (node_continuous d hk).continuousAt (x := x) |>.eventually hg
    filter_upwards [this] with z hz using isGradient_node d hk hz
  · have e : (fun r : Fin d.VAR => scatter2 d k (fun i j => ext (fun i => ext (H i) j) i) r c)
        = fun r : Fin d.VAR => ∑ j ∈ Finset.range d.M, (if nodeIdx d k j = c then 1 else 0) * scatter d k (ext fun i => ext (H i) j) r := by
      funext r
      rw [scatter2_comm]
      exact Finset.sum_congr rfl fun j _ => by split_ifs <;> simp
    have e2 : (fun z : Fin d.VAR → ℝ => scatter d k (ext (g (node d (ext z) k))) c)
        = fun z : Fin d.VAR → ℝ => ∑ j ∈ Finset.range d.M, (if nodeIdx d k j = c then 1 else 0) * ext (g (node d (ext z) k)) j := by
      funext z
      exact Finset.sum_congr rfl fun j _ => by split_ifs <;> simp
    rw [e, e2]
    refine IsGradient.sum' _ fun j hj => IsGradient.smul' _ ?_
    have hj' := Finset.mem_range.1 hj
    have h1 : IsGradient (fun z => g z ⟨j, hj'⟩) (fun r => H r ⟨j, hj'⟩) (node d (ext x) k) := hg' ⟨j, hj'⟩
    have e3 : (fun z : Fin d.VAR → ℝ => ext (g (node d (ext z) k)) j) = fun z => g (node d (ext z) k) ⟨j, hj'⟩ := by
      funext z; unfold ext; rw [dif_pos hj']
    have e4 : (fun i => ext (H i) j) = fun i => H i ⟨j, hj'⟩ := by funext i; unfold ext; rw [dif_pos hj']
    rw [e3, e4]
    exact isGradient_node d hk h1

end PolyMPC.Ocp
