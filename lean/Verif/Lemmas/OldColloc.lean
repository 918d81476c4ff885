import Verif.Model.OldColloc
import Verif.Lemmas.Ocp
import Verif.Lemmas.OcpCalc
import Verif.Lemmas.OcpSparseEq

/-! # Closed forms of the older collocation classes -/

namespace PolyMPC.OldColloc
open AD Spec Ocp

set_option linter.unusedSectionVars false
set_option linter.unusedVariables false

/-! ### Positions of a node -/

/-- Position of component `i` of `(x_k, u_k)` in the vector of variables. -/
def xuIdx (d : Dims) (k i : ℕ) : ℕ := if i < d.NX then k * d.NX + i else k * d.NU + d.VARX + (i - d.NX)

theorem nodeXU_eq {K : Type} (d : Dims) (var : ℕ → K) (k : ℕ) (i : Fin (MU d)) : nodeXU d var k i = var (xuIdx d k i) := by
  unfold nodeXU xuIdx; split_ifs <;> rfl

theorem xuIdx_lt (d : Dims) {k i : ℕ} (hk : k < d.NN) (hi : i < MU d) : xuIdx d k i < d.VARX + d.VARU := by
  obtain ⟨f1, f2⟩ := idx_facts d hk
  unfold MU at hi
  unfold xuIdx
  by_cases h : i < d.NX
  · rw [if_pos h]; omega
  · rw [if_neg h]; omega

theorem xuIdx_inj (d : Dims) {k l i j : ℕ} (hk : k < d.NN) (hl : l < d.NN) (hi : i < MU d) (hj : j < MU d)
    (h : xuIdx d k i = xuIdx d l j) : k = l ∧ i = j := by
  obtain ⟨f1, f2⟩ := idx_facts d hk
  obtain ⟨f3, f4⟩ := idx_facts d hl
  unfold MU at hi hj
  unfold xuIdx at h
  by_cases a : i < d.NX
  · by_cases b : j < d.NX
    · rw [if_pos a, if_pos b] at h
      exact blk_inj a b h
    · rw [if_pos a, if_neg b] at h; omega
  · by_cases b : j < d.NX
    · rw [if_neg a, if_pos b] at h; omega
    · rw [if_neg a, if_neg b] at h
      have := blk_inj (n := d.NU) (i := i - d.NX) (j := j - d.NX) (k := k) (l := l) (by omega) (by omega) (by omega)
      omega

/-- Every position of a state or control belongs to a node. -/
theorem xuIdx_surj (d : Dims) {c : ℕ} (hc : c < d.VARX + d.VARU) : ∃ k i, k < d.NN ∧ i < MU d ∧ c = xuIdx d k i := by
  by_cases h : c < d.VARX
  · obtain ⟨k, i, hk, hi, e⟩ := blk_split (n := d.NX) (m := d.NN) (r := c) h
    exact ⟨k, i, hk, by unfold MU; omega, by unfold xuIdx; rw [if_pos hi]; exact e⟩
  · obtain ⟨k, i, hk, hi, e⟩ := blk_split (n := d.NU) (m := d.NN) (r := c - d.VARX) (by show _ < d.VARU; omega)
    refine ⟨k, d.NX + i, hk, by unfold MU; omega, ?_⟩
    unfold xuIdx; rw [if_neg (by omega)]; omega

/-- A position is a state of node `k`, a control of node `k`, or neither. -/
theorem xu_cases (d : Dims) {k : ℕ} (hk : k < d.NN) (c : ℕ) :
    (∃ i < d.NX, c = k * d.NX + i ∧ xuIdx d k i = c ∧ ¬ (k * d.NU + d.VARX ≤ c)) ∨
    (∃ i < d.NU, c = k * d.NU + d.VARX + i ∧ xuIdx d k (d.NX + i) = c ∧ ¬ (c < k * d.NX + d.NX)) ∨
    ((¬ (k * d.NX ≤ c ∧ c < k * d.NX + d.NX)) ∧ (¬ (k * d.NU + d.VARX ≤ c ∧ c < k * d.NU + d.VARX + d.NU)) ∧
      ∀ i < MU d, xuIdx d k i ≠ c) := by
  obtain ⟨f1, f2⟩ := idx_facts d hk
  by_cases h1 : k * d.NX ≤ c ∧ c < k * d.NX + d.NX
  · left; refine ⟨c - k * d.NX, by omega, by omega, ?_, by omega⟩
    unfold xuIdx; rw [if_pos (by omega)]; omega
  by_cases h2 : k * d.NU + d.VARX ≤ c ∧ c < k * d.NU + d.VARX + d.NU
  · right; left; refine ⟨c - (k * d.NU + d.VARX), by omega, by omega, ?_, by omega⟩
    unfold xuIdx; rw [if_neg (by omega)]; omega
  · right; right
    refine ⟨h1, h2, fun i hi he => ?_⟩
    unfold MU at hi
    unfold xuIdx at he
    by_cases a : i < d.NX
    · rw [if_pos a] at he; omega
    · rw [if_neg a] at he; omega

variable {K : Type} [Field K]

/-- The derivatives `g` of a function of `(x_k, u_k)` as derivatives with respect to all variables. -/
def scat (d : Dims) (k : ℕ) (g : ℕ → K) (c : ℕ) : K := ∑ i ∈ Finset.range (MU d), if xuIdx d k i = c then g i else 0

theorem scat_at (d : Dims) {k i : ℕ} (g : ℕ → K) (hk : k < d.NN) (hi : i < MU d) : scat d k g (xuIdx d k i) = g i := by
  unfold scat
  rw [Finset.sum_eq_single i]
  · rw [if_pos rfl]
  · intro j hj hne
    rw [if_neg fun h => hne (xuIdx_inj d hk hk (Finset.mem_range.1 hj) hi h).2]
  · intro h; exact absurd (Finset.mem_range.2 hi) h

theorem scat_off (d : Dims) {k : ℕ} (g : ℕ → K) {c : ℕ} (h : ∀ i < MU d, xuIdx d k i ≠ c) : scat d k g c = 0 :=
  Finset.sum_eq_zero fun i hi => if_neg (h i (Finset.mem_range.1 hi))

theorem scat_other (d : Dims) {k l i : ℕ} (g : ℕ → K) (hk : k < d.NN) (hl : l < d.NN) (hne : k ≠ l) (hi : i < MU d) :
    scat d k g (xuIdx d l i) = 0 :=
  scat_off d g fun j hj h => hne (xuIdx_inj d hk hl hj hi h).1

theorem scat_par (d : Dims) {k c : ℕ} (g : ℕ → K) (hk : k < d.NN) (hc : d.VARX + d.VARU ≤ c) : scat d k g c = 0 :=
  scat_off d g fun j hj h => by have := xuIdx_lt d hk hj; omega

/-- The same for second derivatives. -/
def scat2 (d : Dims) (k : ℕ) (h : ℕ → ℕ → K) (r c : ℕ) : K := scat d k (fun i => scat d k (fun j => h i j) c) r

/-! ### Residual -/

theorem node_mul_lt (d : Dims) {k i n : ℕ} (hk : k < d.NN) (hi : i < n) : k * n + i < d.NN * n := blk_le hi hk

theorem gen_aux (d : Dims) (NY : ℕ) (func : (Fin (MU d) → K) → (ℕ → K) → (ℕ → K) → ℕ → K) (F : ℕ → (Fin (MU d) → K) → (ℕ → K) → K)
    (hF : ∀ z p old, ∀ i < NY, func z p old i = F i z p) (var v0 r0 : ℕ → K) (n : ℕ) : ∀ k < n, ∀ i < NY,
    (loop n (fun t (s : (ℕ → K) × (ℕ → K)) =>
      let f := func (nodeXU d var t) (par d var) s.1
      (f, setSeg s.2 (t * NY) NY f)) (r0, v0)).2 (k * NY + i) = F i (nodeXU d var k) (par d var) := by
  induction n with
  | zero => intro k hk; omega
  | succ n ih =>
    intro k hk i hi
    rw [loop_succ]
    show setSeg _ (n * NY) NY _ (k * NY + i) = _
    unfold setSeg
    by_cases e : n = k
    · subst e
      rw [if_pos (by omega), Nat.add_sub_cancel_left, hF _ _ _ _ hi]
    · rw [if_neg fun h => e ((blk k n hi).1 h)]
      exact ih k (by omega) i hi

theorem kron_row (d : Dims) (A : Approx K) (hS : 1 ≤ d.S) (hN : 1 ≤ d.N) {s j a : ℕ} (hs : s < d.S) (hj : j ≤ d.N)
    (hjs : j < d.N ∨ s + 1 = d.S) (ha : a < d.NX) (v : ℕ → K) :
    ∑ q ∈ Finset.range d.VARX, kronE d.NX (compositeD d A) ((s * d.N + j) * d.NX + a) q * v q
      = ∑ l ∈ Finset.range (d.N + 1), A.D j l * v ((s * d.N + l) * d.NX + a) := by
  have h0 : 0 < d.NX := by omega
  have e1 : ((s * d.N + j) * d.NX + a) / d.NX = s * d.N + j := by
    rw [Nat.mul_comm, Nat.mul_add_div h0, Nat.div_eq_of_lt ha, Nat.add_zero]
  have e2 : ((s * d.N + j) * d.NX + a) % d.NX = a := by
    rw [Nat.mul_comm, Nat.mul_add_mod, Nat.mod_eq_of_lt ha]
  have step : ∀ n : ℕ, ∑ q ∈ Finset.range (d.NX * n), kronE d.NX (compositeD d A) ((s * d.N + j) * d.NX + a) q * v q
      = ∑ i ∈ Finset.range n, compositeD d A (s * d.N + j) i * v (i * d.NX + a) := by
    intro n
    induction n with
    | zero => simp
    | succ n ih =>
      rw [Nat.mul_succ, Finset.sum_range_add, ih, Finset.sum_range_succ]
      congr 1
      rw [Finset.sum_eq_single a]
      · unfold kronE
        rw [e1, e2, Nat.mul_add_mod, Nat.mod_eq_of_lt ha, if_pos rfl, Nat.mul_add_div h0, Nat.div_eq_of_lt ha, Nat.add_zero, Nat.mul_comm d.NX n]
      · intro b hb hne
        have hb' := Finset.mem_range.1 hb
        unfold kronE
        rw [e2, Nat.mul_add_mod, Nat.mod_eq_of_lt hb', if_neg (Ne.symm hne), zero_mul]
      · intro h; exact absurd (Finset.mem_range.2 ha) h
  have hst := step d.NN
  rw [show d.NX * d.NN = d.VARX from rfl] at hst
  rw [hst]
  have hle : s * d.N + (d.N + 1) ≤ d.NN := by
    have : (s + 1) * d.N ≤ d.S * d.N := Nat.mul_le_mul_right _ hs
    rw [Nat.add_mul] at this
    show _ ≤ d.S * d.N + 1
    omega
  have e3 : ∀ i ∈ Finset.range d.NN, compositeD d A (s * d.N + j) i * v (i * d.NX + a)
      = (if s * d.N ≤ i ∧ i ≤ s * d.N + d.N then A.D j (i - s * d.N) else 0) * v (i * d.NX + a) := fun i hi => by
    rw [compositeD_closed d A hS hN hs hj hjs (Finset.mem_range.1 hi)]
  rw [Finset.sum_congr rfl e3, show d.NN = s * d.N + (d.N + 1) + (d.NN - (s * d.N + (d.N + 1))) by omega, Finset.sum_range_add, Finset.sum_range_add]
  rw [Finset.sum_eq_zero (s := Finset.range (s * d.N)), zero_add,
    Finset.sum_eq_zero (s := Finset.range (d.NN - (s * d.N + (d.N + 1)))), add_zero]
  · refine Finset.sum_congr rfl fun l hl => ?_
    have := Finset.mem_range.1 hl
    rw [if_pos (by omega), Nat.add_sub_cancel_left]
  · intro i hi
    rw [if_neg (by omega), zero_mul]
  · intro i hi
    have := Finset.mem_range.1 hi
    rw [if_neg (by omega), zero_mul]

/-! ### Jacobian -/

theorem setRows (d : Dims) (J : ℕ → ℕ → K) {k a : ℕ} (hk : k < d.NN) (ha : a < d.NX) (B : ℕ → ℕ → K) (c : ℕ) (hz : J (k * d.NX + a) c = 0) :
    setBlock (setBlock J (k * d.NX) (k * d.NX) d.NX d.NX fun r m => B r m)
      (k * d.NX) (k * d.NU + d.VARX) d.NX d.NU (fun r m => B r (d.NX + m)) (k * d.NX + a) c = scat d k (B a) c := by
  unfold setBlock
  have hr : k * d.NX ≤ k * d.NX + a ∧ k * d.NX + a < k * d.NX + d.NX := by omega
  simp only [hr, and_self, true_and, Nat.add_sub_cancel_left]
  rcases xu_cases d hk c with ⟨i, hi, e, hn, h2⟩ | ⟨i, hi, e, hn, h2⟩ | ⟨n1, n2, hn⟩
  · rw [if_neg (by omega), if_pos (by omega), ← hn, scat_at d _ hk (by unfold MU; omega), hn, show c - k * d.NX = i by omega]
  · rw [if_pos (by omega), ← hn, scat_at d _ hk (by unfold MU; omega), hn, show c - (k * d.NU + d.VARX) = i by omega]
  · rw [if_neg n2, if_neg n1, hz, scat_off d _ hn]

theorem setRows_other (d : Dims) (J : ℕ → ℕ → K) {k t a : ℕ} (hne : t ≠ k) (ha : a < d.NX) (B1 B2 : ℕ → ℕ → K) (p1 p2 q1 q2 c : ℕ) :
    setBlock (setBlock J (t * d.NX) p1 d.NX q1 B1) (t * d.NX) p2 d.NX q2 B2 (k * d.NX + a) c = J (k * d.NX + a) c := by
  have hr : ¬ (t * d.NX ≤ k * d.NX + a ∧ k * d.NX + a < t * d.NX + d.NX) := fun h => hne ((blk k t ha).1 h)
  unfold setBlock
  simp only [hr, false_and, if_false]

/-- Closed form of `linearized`. -/
theorem linearized_closed (d : Dims) (o : Ode d K) (ho : o.seeded = true) (var : ℕ → K) (t0 tf : K) (v0 : ℕ → K)
    (Y : ℕ → ℕ → Dual (MU d) K) (hY : ∀ k < d.NN, ∀ old, ∀ i < d.NX, o.f.ad (nodeXU d var k) (par d var) old i = Y k i) :
    ∃ J b o', o.linearized d var t0 tf v0 = some (J, b, o') ∧ o'.f = o.f ∧ o'.diffMat = o.diffMat ∧ o'.seeded = true ∧
      ∀ k < d.NN, ∀ i < d.NX,
        b (k * d.NX + i) = ∑ j ∈ Finset.range d.VARX, o.diffMat (k * d.NX + i) j * var j - tScale d t0 tf * (Y k i).val ∧
        ∀ c, J (k * d.NX + i) c = scat d k (fun m => -tScale d t0 tf * derAt (Y k i) m) c
          + if c < d.VARX then o.diffMat (k * d.NX + i) c else 0 := by
  unfold Ode.linearized
  rw [if_pos ho]
  refine ⟨_, _, _, rfl, rfl, rfl, ho, fun k hk i hi => ?_⟩
  have key : ∀ n, ∀ k < d.NN, ∀ i < d.NX,
      (k < n → n ≤ d.NN → (loop n (fun t (s : (ℕ → Dual (MU d) K) × (ℕ → K) × (ℕ → ℕ → K)) =>
        let y := o.f.ad (nodeXU d var t) (par d var) s.1
        let v := setSeg s.2.1 (t * d.NX) d.NX fun i => (y i).val
        let A := setBlock s.2.2 (t * d.NX) (t * d.NX) d.NX d.NX fun r m => -tScale d t0 tf * derAt (y r) m
        let A := setBlock A (t * d.NX) (t * d.NU + d.VARX) d.NX d.NU fun r m => -tScale d t0 tf * derAt (y r) (d.NX + m)
        (y, v, A)) (o.adY, v0, fun _ _ => 0)).2.1 (k * d.NX + i) = (Y k i).val) ∧
      (n ≤ d.NN → ∀ c, (loop n (fun t (s : (ℕ → Dual (MU d) K) × (ℕ → K) × (ℕ → ℕ → K)) =>
        let y := o.f.ad (nodeXU d var t) (par d var) s.1
        let v := setSeg s.2.1 (t * d.NX) d.NX fun i => (y i).val
        let A := setBlock s.2.2 (t * d.NX) (t * d.NX) d.NX d.NX fun r m => -tScale d t0 tf * derAt (y r) m
        let A := setBlock A (t * d.NX) (t * d.NU + d.VARX) d.NX d.NU fun r m => -tScale d t0 tf * derAt (y r) (d.NX + m)
        (y, v, A)) (o.adY, v0, fun _ _ => 0)).2.2 (k * d.NX + i) c
        = if k < n then scat d k (fun m => -tScale d t0 tf * derAt (Y k i) m) c else 0) := by
    intro n
    induction n with
    | zero => intro k hk i hi; exact ⟨fun h => by omega, fun _ c => by rw [if_neg (by omega)]; rfl⟩
    | succ n ih =>
      intro k hk i hi
      obtain ⟨i1, i2⟩ := ih k hk i hi
      rw [loop_succ]
      generalize loop n _ _ = S at i1 i2
      constructor
      · intro h1 h2
        show setSeg S.2.1 (n * d.NX) d.NX (fun i => (o.f.ad (nodeXU d var n) (par d var) S.1 i).val) (k * d.NX + i) = _
        unfold setSeg
        by_cases e : n = k
        · subst e
          rw [if_pos (by omega), Nat.add_sub_cancel_left]
          exact congrArg Dual.val (hY n hk _ _ hi)
        · rw [if_neg fun h => e ((blk k n hi).1 h)]
          exact i1 (by omega) (by omega)
      · intro h2 c
        have i2' := i2 (by omega) c
        by_cases e : n = k
        · subst e
          rw [if_neg (by omega)] at i2'
          rw [if_pos (by omega)]
          have hs := setRows d S.2.2 hk hi (fun r m => -tScale d t0 tf * derAt (o.f.ad (nodeXU d var n) (par d var) S.1 r) m) c i2'
          refine hs.trans ?_
          simp only [hY n hk _ i hi]
        · have hs := setRows_other d S.2.2 e hi (fun r m => -tScale d t0 tf * derAt (o.f.ad (nodeXU d var n) (par d var) S.1 r) m)
            (fun r m => -tScale d t0 tf * derAt (o.f.ad (nodeXU d var n) (par d var) S.1 r) (d.NX + m)) (n * d.NX) (n * d.NU + d.VARX) d.NX d.NU c
          refine hs.trans (i2'.trans ?_)
          by_cases h : k < n
          · rw [if_pos h, if_pos (by omega)]
          · rw [if_neg h, if_neg (by omega)]
  obtain ⟨k1, k2⟩ := key d.NN k hk i hi
  refine ⟨?_, fun c => ?_⟩
  · show _ - _ = _ - _
    rw [k1 hk le_rfl]
  · have k2' := k2 le_rfl c
    rw [if_pos hk] at k2'
    have hlt : k * d.NX + i < d.VARX := by have := node_mul_lt d hk hi; rw [Nat.mul_comm d.NN] at this; exact this
    show addBlock _ 0 0 d.VARX d.VARX o.diffMat (k * d.NX + i) c = _
    unfold addBlock
    by_cases hc : c < d.VARX
    · rw [if_pos (by omega), if_pos hc, Nat.sub_zero, Nat.sub_zero, k2']
    · rw [if_neg (by omega), if_neg hc, add_zero, k2']

/-! ### Derivatives of functions of one node -/

theorem isGradient_proj {m n : ℕ} (idx : Fin m → Fin n) {f : (Fin m → ℝ) → ℝ} {u : Fin m → ℝ} {x : Fin n → ℝ}
    (h : IsGradient f u (fun i => x (idx i))) :
    IsGradient (fun z => f fun i => z (idx i)) (fun c => ∑ i, if idx i = c then u i else 0) x := by
  have hn : HasFDerivAt (fun (z : Fin n → ℝ) (i : Fin m) => z (idx i))
      (ContinuousLinearMap.pi fun i : Fin m => ContinuousLinearMap.proj (R := ℝ) (φ := fun _ : Fin n => ℝ) (idx i)) x :=
    hasFDerivAt_pi.2 fun i => hasFDerivAt_apply _ x
  have h' : HasFDerivAt f (gradMap u) ((fun (z : Fin n → ℝ) (i : Fin m) => z (idx i)) x) := h
  refine HasFDerivAt.congr_fderiv (HasFDerivAt.comp x h' hn) ?_
  ext z
  simp only [ContinuousLinearMap.comp_apply, gradMap_apply, ContinuousLinearMap.pi_apply, ContinuousLinearMap.proj_apply, Finset.sum_mul]
  rw [Finset.sum_comm]
  refine Finset.sum_congr rfl fun i _ => ?_
  rw [Finset.sum_eq_single (idx i)]
  · rw [if_pos rfl]
  · intro c _ hc; rw [if_neg (Ne.symm hc), zero_mul]
  · intro h'; exact absurd (Finset.mem_univ _) h'

theorem isHessian_proj {m n : ℕ} (idx : Fin m → Fin n) {f : (Fin m → ℝ) → ℝ} {H : Fin m → Fin m → ℝ} {x : Fin n → ℝ}
    (h : IsHessian f H (fun i => x (idx i))) :
    IsHessian (fun z => f fun i => z (idx i)) (fun r c => ∑ j, if idx j = c then ∑ i, if idx i = r then H i j else 0 else 0) x := by
  obtain ⟨g, hg, hg'⟩ := h
  have hcont : Continuous fun (z : Fin n → ℝ) (i : Fin m) => z (idx i) := by fun_prop
  refine ⟨fun z c => ∑ i, if idx i = c then g (fun i => z (idx i)) i else 0, ?_, fun c => ?_⟩
  · have := hcont.continuousAt (x := x) |>.eventually hg
    filter_upwards [this] with z hz using isGradient_proj idx hz
  · have e : (fun r : Fin n => ∑ j, if idx j = c then ∑ i, if idx i = r then H i j else 0 else 0)
        = fun r : Fin n => ∑ j, (if idx j = c then 1 else 0) * ∑ i, if idx i = r then H i j else 0 := by
      funext r; exact Finset.sum_congr rfl fun j _ => by split_ifs <;> simp
    have e2 : (fun z : Fin n → ℝ => ∑ i, if idx i = c then g (fun i => z (idx i)) i else 0)
        = fun z : Fin n → ℝ => ∑ j, (if idx j = c then 1 else 0) * g (fun i => z (idx i)) j := by
      funext z; exact Finset.sum_congr rfl fun j _ => by split_ifs <;> simp
    rw [e, e2]
    exact IsGradient.sum' _ fun j _ => IsGradient.smul' _ (isGradient_proj idx (hg' j))

/-- Position of a state or control among all variables. -/
def xuFin (d : Dims) {k : ℕ} (hk : k < d.NN) (i : Fin (MU d)) : Fin d.VAR :=
  ⟨xuIdx d k i, lt_of_lt_of_le (xuIdx_lt d hk i.2) (Nat.le_add_right _ _)⟩

theorem nodeXU_ext (d : Dims) (x : Fin d.VAR → ℝ) {k : ℕ} (hk : k < d.NN) : nodeXU d (ext x) k = fun i => x (xuFin d hk i) := by
  funext i; rw [nodeXU_eq]; unfold ext; exact dif_pos (xuFin d hk i).2

theorem isGradient_xu (d : Dims) {k : ℕ} (hk : k < d.NN) {f : (Fin (MU d) → ℝ) → ℝ} {u : Fin (MU d) → ℝ} {x : Fin d.VAR → ℝ}
    (h : IsGradient f u (nodeXU d (ext x) k)) : IsGradient (fun z => f (nodeXU d (ext z) k)) (fun c => scat d k (ext u) c) x := by
  rw [nodeXU_ext d x hk] at h
  have h1 := isGradient_proj (xuFin d hk) h
  have e : (fun z : Fin d.VAR → ℝ => f (nodeXU d (ext z) k)) = fun z => f fun i => z (xuFin d hk i) := by
    funext z; rw [nodeXU_ext d z hk]
  rw [e]
  have e2 : (fun c : Fin d.VAR => scat d k (ext u) c) = fun c => ∑ i, if xuFin d hk i = c then u i else 0 := by
    funext c
    unfold scat
    rw [Finset.sum_range]
    refine Finset.sum_congr rfl fun i _ => ?_
    have : (xuIdx d k i = c.val) ↔ xuFin d hk i = c := ⟨fun h => Fin.ext h, fun h => congrArg Fin.val h⟩
    simp only [this]
    unfold ext
    rw [dif_pos i.2]
  rw [e2]; exact h1

theorem isHessian_xu (d : Dims) {k : ℕ} (hk : k < d.NN) {f : (Fin (MU d) → ℝ) → ℝ} {H : Fin (MU d) → Fin (MU d) → ℝ} {x : Fin d.VAR → ℝ}
    (h : IsHessian f H (nodeXU d (ext x) k)) :
    IsHessian (fun z => f (nodeXU d (ext z) k)) (fun r c => scat2 d k (fun i j => ext (fun j => ext (fun i => H i j) i) j) r c) x := by
  rw [nodeXU_ext d x hk] at h
  have h1 := isHessian_proj (xuFin d hk) h
  have e : (fun z : Fin d.VAR → ℝ => f (nodeXU d (ext z) k)) = fun z => f fun i => z (xuFin d hk i) := by
    funext z; rw [nodeXU_ext d z hk]
  rw [e]
  have e2 : (fun r c : Fin d.VAR => scat2 d k (fun i j => ext (fun j => ext (fun i => H i j) i) j) r c)
      = fun r c => ∑ j, if xuFin d hk j = c then ∑ i, if xuFin d hk i = r then H i j else 0 else 0 := by
    funext r c
    unfold scat2 scat
    rw [Finset.sum_range]
    have hi : ∀ (i : Fin (MU d)) (b : Fin d.VAR), (xuIdx d k i = b.val) ↔ xuFin d hk i = b :=
      fun i b => ⟨fun h => Fin.ext h, fun h => congrArg Fin.val h⟩
    have h2 : ∀ i : Fin (MU d), (∑ j ∈ Finset.range (MU d), if xuIdx d k j = c.val then ext (fun j => ext (fun i => H i j) i) j else 0)
        = ∑ j : Fin (MU d), if xuFin d hk j = c then H i j else 0 := by
      intro i
      rw [Finset.sum_range]
      refine Finset.sum_congr rfl fun j _ => ?_
      simp only [hi]
      unfold ext
      simp only [j.2, i.2, dite_true]
    simp only [hi, h2]
    have e3 : ∀ (p : Prop) [Decidable p] (f : Fin (MU d) → ℝ), (if p then ∑ j, f j else 0) = ∑ j, if p then f j else 0 := by
      intro p _ f; split_ifs <;> simp
    simp only [e3]
    rw [Finset.sum_comm]
    refine Finset.sum_congr rfl fun j _ => Finset.sum_congr rfl fun i _ => ?_
    split_ifs <;> rfl
  rw [e2]; exact h1

/-! ### Quadrature -/

/-- A node between two segments counts twice. -/
def jf (d : Dims) (it : ℕ) : K := if junction d it then 2 else 1

theorem jf_at (d : Dims) (hN : 1 ≤ d.N) {s j : ℕ} (hs : s < d.S) (hj : j < d.N) :
    (jf d (s * d.N + j) : K) = if j = 0 ∧ s ≠ 0 then 2 else 1 := by
  unfold jf junction
  have e1 : (s * d.N + j) % d.N = j := by rw [Nat.mul_comm, Nat.mul_add_mod, Nat.mod_eq_of_lt hj]
  have e2 : s * d.N + j < d.S * d.N := blk_le hj hs
  have e3 : (s * d.N + j = 0) ↔ (s = 0 ∧ j = 0) := by
    constructor
    · intro h
      refine ⟨?_, by omega⟩
      rcases Nat.eq_zero_or_pos s with h' | h'
      · exact h'
      · have : 1 * d.N ≤ s * d.N := Nat.mul_le_mul_right _ h'
        omega
    · rintro ⟨rfl, rfl⟩; simp
  simp only [e1, Bool.and_eq_true, decide_eq_true_eq, e2, and_true, ne_eq, e3]
  by_cases h0 : j = 0 <;> simp [h0]

theorem jf_last (d : Dims) : (jf d (d.S * d.N) : K) = 1 := by
  unfold jf junction
  simp

/-- The sum over all nodes with the weight index taken modulo the order, as a sum over the segments. -/
theorem quad_sum (d : Dims) (hS : 1 ≤ d.S) (hN : 1 ≤ d.N) (w g : ℕ → K) :
    ∑ it ∈ Finset.range d.NN, jf d it * (w (it % d.N) * g it)
      = ∑ s ∈ Finset.range d.S, ∑ j ∈ Finset.range (d.N + 1), w j * g (s * d.N + j)
        + (w 0 - w d.N) * ∑ s ∈ Finset.range d.S, g ((s + 1) * d.N) := by
  have key : ∀ m ≤ d.S, ∑ it ∈ Finset.range (m * d.N), jf d it * (w (it % d.N) * g it) + w 0 * g (m * d.N)
      = ∑ s ∈ Finset.range m, ∑ j ∈ Finset.range (d.N + 1), w j * g (s * d.N + j)
        + (w 0 - w d.N) * ∑ s ∈ Finset.range m, g ((s + 1) * d.N) + if m = 0 then w 0 * g 0 else 0 := by
    intro m
    induction m with
    | zero => intro _; simp
    | succ m ih =>
      intro hm
      have ih' := ih (by omega)
      rw [Nat.add_mul, Nat.one_mul, Finset.sum_range_add, Finset.sum_range_succ (n := m), Finset.sum_range_succ (n := m), if_neg (by omega)]
      have e : ∑ j ∈ Finset.range d.N, jf d (m * d.N + j) * (w ((m * d.N + j) % d.N) * g (m * d.N + j))
          = ∑ j ∈ Finset.range d.N, w j * g (m * d.N + j) + if m = 0 then 0 else w 0 * g (m * d.N) := by
        obtain ⟨n, hn⟩ : ∃ n, d.N = n + 1 := ⟨d.N - 1, by omega⟩
        have e1 : ∀ j ∈ Finset.range d.N, jf d (m * d.N + j) * (w ((m * d.N + j) % d.N) * g (m * d.N + j))
            = w j * g (m * d.N + j) + if j = 0 then (if m = 0 then 0 else w 0 * g (m * d.N)) else 0 := by
          intro j hj
          have hj' := Finset.mem_range.1 hj
          rw [jf_at d hN (by omega) hj', Nat.mul_comm m, Nat.mul_add_mod, Nat.mod_eq_of_lt hj']
          by_cases h0 : j = 0
          · subst h0
            by_cases h1 : m = 0
            · simp [h1]
            · simp [h1, two_mul]
          · simp [h0]
        rw [Finset.sum_congr rfl e1, Finset.sum_add_distrib]
        congr 1
        rw [Finset.sum_eq_single 0]
        · rw [if_pos rfl]
        · intro b _ hb; rw [if_neg hb]
        · intro h; exact absurd (Finset.mem_range.2 (by omega)) h
      rw [e, Finset.sum_range_succ (n := d.N)]
      have e5 : (m + 1) * d.N = m * d.N + d.N := by rw [Nat.add_mul, Nat.one_mul]
      rw [e5]
      by_cases h1 : m = 0
      · subst h1
        simp at ih' ⊢
        ring
      · rw [if_neg h1] at ih' ⊢
        linear_combination ih'
  have h := key d.S le_rfl
  rw [if_neg (by omega), add_zero] at h
  rw [← h]
  show ∑ it ∈ Finset.range (d.S * d.N + 1), _ = _
  rw [Finset.sum_range_succ, jf_last, Nat.mul_mod_left, one_mul]

/-! ### Cost -/

theorem value_step (d : Dims) (it : ℕ) (c a b : K) : (if junction d it then c + a * b + a * b else c + a * b) = c + jf d it * (a * b) := by
  unfold jf
  by_cases h : junction d it = true
  · rw [if_pos h, if_pos h]; ring
  · rw [if_neg h, if_neg h]; ring

/-- Closed form of `operator()`. -/
theorem eval_closed (d : Dims) (o : Cost d K) (w : ℕ → K) (hw : o.w = some w) (var : ℕ → K) (t0 tf : K) (L : ℕ → K)
    (hL : ∀ k < d.NN, ∀ old, o.cb.lag (nodeXU d var k) (par d var) old = L k) :
    o.eval d var t0 tf = some (o.cb.mayer (headX d var) 0
      + ∑ it ∈ Finset.range d.NN, jf d it * (tScale d t0 tf * w (it % d.N) * L it)) := by
  unfold Cost.eval
  rw [hw, Option.map_some]
  congr 1
  have := loop_inv (P := fun m (s : K × K) => m ≤ d.NN → s.1 = o.cb.mayer (headX d var) 0
      + ∑ it ∈ Finset.range m, jf d it * (tScale d t0 tf * w (it % d.N) * L it)) (n := d.NN) (s := (0 + o.cb.mayer (headX d var) 0, 0))
    (f := fun it (s : K × K) =>
      (if junction d it then s.1 + tScale d t0 tf * w (it % d.N) * o.cb.lag (nodeXU d var it) (par d var) s.2
          + tScale d t0 tf * w (it % d.N) * o.cb.lag (nodeXU d var it) (par d var) s.2
        else s.1 + tScale d t0 tf * w (it % d.N) * o.cb.lag (nodeXU d var it) (par d var) s.2,
        o.cb.lag (nodeXU d var it) (par d var) s.2))
    (by intro _; simp) (by
      intro i hi s hs _
      show (if junction d i then _ else _) = _
      rw [value_step, hs (by omega), hL i hi, Finset.sum_range_succ]
      ring)
  exact this le_rfl

theorem gradNode_apply (d : Dims) (v : ℕ → K) {k : ℕ} (hk : k < d.NN) (coeff : K) (g : ℕ → K) (c : ℕ)
    (hz : ∀ i < MU d, v (xuIdx d k i) = 0) : gradNode d v k coeff g c = v c + jf d k * (coeff * scat d k g c) := by
  unfold gradNode jf
  by_cases hj : junction d k = true
  · simp only [if_pos hj]
    unfold dblSeg setSeg
    rcases xu_cases d hk c with ⟨i, hi, e, hn, h2⟩ | ⟨i, hi, e, hn, h2⟩ | ⟨n1, n2, hn⟩
    · have hz' := hz i (by unfold MU; omega)
      rw [hn] at hz'
      rw [if_neg (by omega), if_pos (by omega), if_neg (by omega), if_pos (by omega), hz', zero_add, ← hn, scat_at d _ hk (by unfold MU; omega), hn,
        show c - k * d.NX = i by omega]
      ring
    · have hz' := hz (d.NX + i) (by unfold MU; omega)
      rw [hn] at hz'
      rw [if_pos (by omega), if_neg (by omega), if_pos (by omega), hz', zero_add, ← hn, scat_at d _ hk (by unfold MU; omega), hn,
        show c - (k * d.NU + d.VARX) = i by omega]
      ring
    · rw [if_neg n2, if_neg n1, if_neg n2, if_neg n1, scat_off d _ hn]; ring
  · simp only [if_neg hj]
    unfold setSeg
    rcases xu_cases d hk c with ⟨i, hi, e, hn, h2⟩ | ⟨i, hi, e, hn, h2⟩ | ⟨n1, n2, hn⟩
    · have hz' := hz i (by unfold MU; omega)
      rw [hn] at hz'
      rw [if_neg (by omega), if_pos (by omega), hz', zero_add, ← hn, scat_at d _ hk (by unfold MU; omega), hn, show c - k * d.NX = i by omega]
      ring
    · have hz' := hz (d.NX + i) (by unfold MU; omega)
      rw [hn] at hz'
      rw [if_pos (by omega), hz', zero_add, ← hn, scat_at d _ hk (by unfold MU; omega), hn, show c - (k * d.NU + d.VARX) = i by omega]
      ring
    · rw [if_neg n2, if_neg n1, scat_off d _ hn]; ring

theorem hessNode_apply (d : Dims) (H : ℕ → ℕ → K) {k : ℕ} (hk : k < d.NN) (coeff : K) (h : ℕ → ℕ → K) (r c : ℕ)
    (hz : ∀ i < MU d, ∀ j < MU d, H (xuIdx d k i) (xuIdx d k j) = 0) :
    hessNode d H k coeff h r c = H r c + jf d k * (coeff * scat2 d k h r c) := by
  unfold hessNode jf scat2
  obtain ⟨f1, f2⟩ := idx_facts d hk
  by_cases hj : junction d k = true
  · simp only [if_pos hj]
    unfold dblBlock setBlock
    rcases xu_cases d hk r with ⟨i, hi, e, hn, h2⟩ | ⟨i, hi, e, hn, h2⟩ | ⟨n1, n2, hn⟩
    · rcases xu_cases d hk c with ⟨j, hj', e', hm, h3⟩ | ⟨j, hj', e', hm, h3⟩ | ⟨m1, m2, hm⟩
      · have hz' := hz i (by unfold MU; omega) j (by unfold MU; omega)
        rw [hn, hm] at hz'
        rw [if_neg (by omega), if_neg (by omega), if_neg (by omega), if_pos (by omega), if_neg (by omega), if_neg (by omega), if_neg (by omega),
          if_pos (by omega), hz', ← hn, scat_at d _ hk (by unfold MU; omega), ← hm, scat_at d _ hk (by unfold MU; omega), hn, hm,
          show r - k * d.NX = i by omega, show c - k * d.NX = j by omega]
        ring
      · have hz' := hz i (by unfold MU; omega) (d.NX + j) (by unfold MU; omega)
        rw [hn, hm] at hz'
        rw [if_neg (by omega), if_neg (by omega), if_pos (by omega), if_neg (by omega), if_neg (by omega), if_neg (by omega), if_pos (by omega),
          hz', ← hn, scat_at d _ hk (by unfold MU; omega), ← hm, scat_at d _ hk (by unfold MU; omega), hn, hm,
          show r - k * d.NX = i by omega, show c - (k * d.NU + d.VARX) = j by omega]
        ring
      · rw [if_neg (by omega), if_neg (by omega), if_neg (by omega), if_neg (by omega), if_neg (by omega), if_neg (by omega), if_neg (by omega),
          if_neg (by omega), ← hn, scat_at d _ hk (by unfold MU; omega), scat_off d _ hm]
        ring
    · rcases xu_cases d hk c with ⟨j, hj', e', hm, h3⟩ | ⟨j, hj', e', hm, h3⟩ | ⟨m1, m2, hm⟩
      · have hz' := hz (d.NX + i) (by unfold MU; omega) j (by unfold MU; omega)
        rw [hn, hm] at hz'
        rw [if_neg (by omega), if_pos (by omega), if_neg (by omega), if_neg (by omega), if_neg (by omega), if_pos (by omega),
          hz', ← hn, scat_at d _ hk (by unfold MU; omega), ← hm, scat_at d _ hk (by unfold MU; omega), hn, hm,
          show r - (k * d.NU + d.VARX) = i by omega, show c - k * d.NX = j by omega]
        ring
      · have hz' := hz (d.NX + i) (by unfold MU; omega) (d.NX + j) (by unfold MU; omega)
        rw [hn, hm] at hz'
        rw [if_pos (by omega), if_neg (by omega), if_neg (by omega), if_neg (by omega), if_pos (by omega),
          hz', ← hn, scat_at d _ hk (by unfold MU; omega), ← hm, scat_at d _ hk (by unfold MU; omega), hn, hm,
          show r - (k * d.NU + d.VARX) = i by omega, show c - (k * d.NU + d.VARX) = j by omega]
        ring
      · rw [if_neg (by omega), if_neg (by omega), if_neg (by omega), if_neg (by omega), if_neg (by omega), if_neg (by omega), if_neg (by omega),
          if_neg (by omega), ← hn, scat_at d _ hk (by unfold MU; omega), scat_off d _ hm]
        ring
    · rw [if_neg (by omega), if_neg (by omega), if_neg (by omega), if_neg (by omega), if_neg (by omega), if_neg (by omega), if_neg (by omega),
          if_neg (by omega), scat_off d _ hn]
      ring
  · simp only [if_neg hj]
    unfold setBlock
    rcases xu_cases d hk r with ⟨i, hi, e, hn, h2⟩ | ⟨i, hi, e, hn, h2⟩ | ⟨n1, n2, hn⟩
    · rcases xu_cases d hk c with ⟨j, hj', e', hm, h3⟩ | ⟨j, hj', e', hm, h3⟩ | ⟨m1, m2, hm⟩
      · have hz' := hz i (by unfold MU; omega) j (by unfold MU; omega)
        rw [hn, hm] at hz'
        rw [if_neg (by omega), if_neg (by omega), if_neg (by omega), if_pos (by omega), hz', ← hn, scat_at d _ hk (by unfold MU; omega), ← hm,
          scat_at d _ hk (by unfold MU; omega), hn, hm, show r - k * d.NX = i by omega, show c - k * d.NX = j by omega]
        ring
      · have hz' := hz i (by unfold MU; omega) (d.NX + j) (by unfold MU; omega)
        rw [hn, hm] at hz'
        rw [if_neg (by omega), if_neg (by omega), if_pos (by omega), hz', ← hn, scat_at d _ hk (by unfold MU; omega), ← hm,
          scat_at d _ hk (by unfold MU; omega), hn, hm, show r - k * d.NX = i by omega, show c - (k * d.NU + d.VARX) = j by omega]
        ring
      · rw [if_neg (by omega), if_neg (by omega), if_neg (by omega), if_neg (by omega), ← hn, scat_at d _ hk (by unfold MU; omega), scat_off d _ hm]
        ring
    · rcases xu_cases d hk c with ⟨j, hj', e', hm, h3⟩ | ⟨j, hj', e', hm, h3⟩ | ⟨m1, m2, hm⟩
      · have hz' := hz (d.NX + i) (by unfold MU; omega) j (by unfold MU; omega)
        rw [hn, hm] at hz'
        rw [if_neg (by omega), if_pos (by omega), hz', ← hn, scat_at d _ hk (by unfold MU; omega), ← hm,
          scat_at d _ hk (by unfold MU; omega), hn, hm, show r - (k * d.NU + d.VARX) = i by omega, show c - k * d.NX = j by omega]
        ring
      · have hz' := hz (d.NX + i) (by unfold MU; omega) (d.NX + j) (by unfold MU; omega)
        rw [hn, hm] at hz'
        rw [if_pos (by omega), hz', ← hn, scat_at d _ hk (by unfold MU; omega), ← hm,
          scat_at d _ hk (by unfold MU; omega), hn, hm, show r - (k * d.NU + d.VARX) = i by omega, show c - (k * d.NU + d.VARX) = j by omega]
        ring
      · rw [if_neg (by omega), if_neg (by omega), if_neg (by omega), if_neg (by omega), ← hn, scat_at d _ hk (by unfold MU; omega), scat_off d _ hm]
        ring
    · rw [if_neg (by omega), if_neg (by omega), if_neg (by omega), if_neg (by omega), scat_off d _ hn]
      ring

/-- The sum over the nodes seen so far. -/
def gSum (d : Dims) (ts : K) (w : ℕ → K) (g : ℕ → ℕ → K) (n c : ℕ) : K :=
  ∑ it ∈ Finset.range n, jf d it * (ts * w (it % d.N) * scat d it (g it) c)

theorem gSum_zero (d : Dims) (ts : K) (w : ℕ → K) (g : ℕ → ℕ → K) {n i : ℕ} (hn : n < d.NN) (hi : i < MU d) : gSum d ts w g n (xuIdx d n i) = 0 :=
  Finset.sum_eq_zero fun it hit => by
    have := Finset.mem_range.1 hit
    rw [scat_other d _ (by omega) hn (by omega) hi]; ring

/-- The same for second derivatives. -/
def hSum (d : Dims) (ts : K) (w : ℕ → K) (h : ℕ → ℕ → ℕ → K) (n r c : ℕ) : K :=
  ∑ it ∈ Finset.range n, jf d it * (ts * w (it % d.N) * scat2 d it (h it) r c)

theorem hSum_zero (d : Dims) (ts : K) (w : ℕ → K) (h : ℕ → ℕ → ℕ → K) {n i j : ℕ} (hn : n < d.NN) (hi : i < MU d) (hj : j < MU d) :
    hSum d ts w h n (xuIdx d n i) (xuIdx d n j) = 0 :=
  Finset.sum_eq_zero fun it hit => by
    have := Finset.mem_range.1 hit
    unfold scat2
    rw [scat_other d _ (by omega) hn (by omega) hi]; ring

/-- Closed form of `value_gradient`. -/
theorem valueGradient_closed (d : Dims) (o : Cost d K) (w : ℕ → K) (hw : o.w = some w) (var : ℕ → K) (t0 tf : K) (a0 m0 : Dual (MU d) K)
    (a : ℕ → Dual (MU d) K) (ha : ∀ k < d.NN, ∀ old, o.cb.lagAD (nodeXU d var k) (par d var) old = a k) :
    ∃ J q, o.valueGradient d var t0 tf a0 m0 = some (J, q) ∧
      J = ∑ it ∈ Finset.range d.NN, jf d it * (tScale d t0 tf * w (it % d.N) * (a it).val) + (o.cb.mayerAD (headX d var) m0).val ∧
      ∀ c, q c = gSum d (tScale d t0 tf) w (fun k => derAt (a k)) d.NN c
        + if c < MU d then derAt (o.cb.mayerAD (headX d var) m0) c else 0 := by
  unfold Cost.valueGradient
  rw [hw, Option.map_some]
  refine ⟨_, _, rfl, ?_⟩
  have := loop_inv (P := fun m (s : K × (ℕ → K) × Dual (MU d) K) => m ≤ d.NN →
      s.1 = ∑ it ∈ Finset.range m, jf d it * (tScale d t0 tf * w (it % d.N) * (a it).val) ∧
      ∀ c, s.2.1 c = gSum d (tScale d t0 tf) w (fun k => derAt (a k)) m c) (n := d.NN) (s := ((0 : K), (fun _ => (0 : K)), a0))
    (f := fun it (s : K × (ℕ → K) × Dual (MU d) K) =>
      (if junction d it then s.1 + tScale d t0 tf * w (it % d.N) * (o.cb.lagAD (nodeXU d var it) (par d var) s.2.2).val
          + tScale d t0 tf * w (it % d.N) * (o.cb.lagAD (nodeXU d var it) (par d var) s.2.2).val
        else s.1 + tScale d t0 tf * w (it % d.N) * (o.cb.lagAD (nodeXU d var it) (par d var) s.2.2).val,
        gradNode d s.2.1 it (tScale d t0 tf * w (it % d.N)) (derAt (o.cb.lagAD (nodeXU d var it) (par d var) s.2.2)),
        o.cb.lagAD (nodeXU d var it) (par d var) s.2.2))
    (by intro _; exact ⟨by simp, fun c => by unfold gSum; simp⟩) (by
      intro i hi s hs _
      obtain ⟨h1, h2⟩ := hs (by omega)
      refine ⟨?_, fun c => ?_⟩
      · show (if junction d i then _ else _) = _
        rw [value_step, h1, ha i hi, Finset.sum_range_succ]
      · show gradNode d s.2.1 i _ _ c = _
        rw [gradNode_apply d s.2.1 hi _ _ c fun j hj => by rw [h2, gSum_zero d _ _ _ hi hj], h2, ha i hi]
        unfold gSum
        rw [Finset.sum_range_succ])
  obtain ⟨h1, h2⟩ := this le_rfl
  refine ⟨congrArg (fun v => v + (o.cb.mayerAD (headX d var) m0).val) h1, fun c => ?_⟩
  show addSeg _ 0 (MU d) _ c = _
  unfold addSeg
  by_cases hc : c < MU d
  · rw [if_pos (by omega), if_pos hc, Nat.sub_zero]
    exact congrArg (fun v => v + derAt (o.cb.mayerAD (headX d var) m0) c) (h2 c)
  · rw [if_neg (by omega), if_neg hc, add_zero]
    exact h2 c

/-- Closed form of `value_gradient_hessian`. -/
theorem valueGradientHessian_closed (d : Dims) (o : Cost d K) (w : ℕ → K) (hw : o.w = some w) (var : ℕ → K) (t0 tf : K)
    (a0 m0 : Dual (MU d) (Dual (MU d) K)) (a : ℕ → Dual (MU d) (Dual (MU d) K))
    (ha : ∀ k < d.NN, ∀ old, o.cb.lagAD2 (nodeXU d var k) (par d var) old = a k) :
    ∃ J q H, o.valueGradientHessian d var t0 tf a0 m0 = some (J, q, H) ∧
      J = ∑ it ∈ Finset.range d.NN, jf d it * (tScale d t0 tf * w (it % d.N) * (a it).val.val) + (o.cb.mayerAD2 (headX d var) m0).val.val ∧
      (∀ c, q c = gSum d (tScale d t0 tf) w (fun k => derAt (a k).val) d.NN c
        + if c < MU d then derAt (o.cb.mayerAD2 (headX d var) m0).val c else 0) ∧
      ∀ r c, H r c = hSum d (tScale d t0 tf) w (fun k => hesRow (a k)) d.NN r c
        + if r < MU d ∧ c < MU d then hesRow (o.cb.mayerAD2 (headX d var) m0) r c else 0 := by
  unfold Cost.valueGradientHessian
  rw [hw, Option.map_some]
  refine ⟨_, _, _, rfl, ?_⟩
  have := loop_inv (P := fun m (s : K × (ℕ → K) × (ℕ → ℕ → K) × Dual (MU d) (Dual (MU d) K)) => m ≤ d.NN →
      s.1 = ∑ it ∈ Finset.range m, jf d it * (tScale d t0 tf * w (it % d.N) * (a it).val.val) ∧
      (∀ c, s.2.1 c = gSum d (tScale d t0 tf) w (fun k => derAt (a k).val) m c) ∧
      ∀ r c, s.2.2.1 r c = hSum d (tScale d t0 tf) w (fun k => hesRow (a k)) m r c) (n := d.NN)
      (s := ((0 : K), (fun _ => (0 : K)), (fun _ _ => (0 : K)), a0))
    (f := fun it (s : K × (ℕ → K) × (ℕ → ℕ → K) × Dual (MU d) (Dual (MU d) K)) =>
      (if junction d it then s.1 + tScale d t0 tf * w (it % d.N) * (o.cb.lagAD2 (nodeXU d var it) (par d var) s.2.2.2).val.val
          + tScale d t0 tf * w (it % d.N) * (o.cb.lagAD2 (nodeXU d var it) (par d var) s.2.2.2).val.val
        else s.1 + tScale d t0 tf * w (it % d.N) * (o.cb.lagAD2 (nodeXU d var it) (par d var) s.2.2.2).val.val,
        gradNode d s.2.1 it (tScale d t0 tf * w (it % d.N)) (derAt (o.cb.lagAD2 (nodeXU d var it) (par d var) s.2.2.2).val),
        hessNode d s.2.2.1 it (tScale d t0 tf * w (it % d.N)) (hesRow (o.cb.lagAD2 (nodeXU d var it) (par d var) s.2.2.2)),
        o.cb.lagAD2 (nodeXU d var it) (par d var) s.2.2.2))
    (by intro _; exact ⟨by simp, fun c => by unfold gSum; simp, fun r c => by unfold hSum; simp⟩) (by
      intro i hi s hs _
      obtain ⟨h1, h2, h3⟩ := hs (by omega)
      refine ⟨?_, fun c => ?_, fun r c => ?_⟩
      · show (if junction d i then _ else _) = _
        rw [value_step, h1, ha i hi, Finset.sum_range_succ]
      · show gradNode d s.2.1 i _ _ c = _
        rw [gradNode_apply d s.2.1 hi _ _ c fun j hj => by rw [h2, gSum_zero d _ _ _ hi hj], h2, ha i hi]
        unfold gSum
        rw [Finset.sum_range_succ]
      · show hessNode d s.2.2.1 i _ _ r c = _
        rw [hessNode_apply d s.2.2.1 hi _ _ r c fun j hj l hl => by rw [h3, hSum_zero d _ _ _ hi hj hl], h3, ha i hi]
        unfold hSum
        rw [Finset.sum_range_succ])
  obtain ⟨h1, h2, h3⟩ := this le_rfl
  refine ⟨congrArg (fun v => v + (o.cb.mayerAD2 (headX d var) m0).val.val) h1, fun c => ?_, fun r c => ?_⟩
  · show addSeg _ 0 (MU d) _ c = _
    unfold addSeg
    by_cases hc : c < MU d
    · rw [if_pos (by omega), if_pos hc, Nat.sub_zero]
      exact congrArg (fun v => v + derAt (o.cb.mayerAD2 (headX d var) m0).val c) (h2 c)
    · rw [if_neg (by omega), if_neg hc, add_zero]
      exact h2 c
  · show addBlock _ 0 0 (MU d) (MU d) _ r c = _
    unfold addBlock
    by_cases hc : r < MU d ∧ c < MU d
    · rw [if_pos (by omega), if_pos hc, Nat.sub_zero, Nat.sub_zero]
      exact congrArg (fun v => v + hesRow (o.cb.mayerAD2 (headX d var) m0) r c) (h3 r c)
    · rw [if_neg (by omega), if_neg hc, add_zero]
      exact h3 r c

end PolyMPC.OldColloc
