import Verif.Props.Ruiz

/-!
# Property C229: what the scaled data look like
-/

set_option linter.unusedSectionVars false

namespace PolyMPC.Ruiz
open Matrix PolyMPC.Spec

variable {K : Type*} [Field K] [LinearOrder K] [IsStrictOrderedRing K] {N M : ℕ}

/-! ## Norms -/

theorem foldl_stored_ge {n : ℕ} (stored : Fin n → Bool) (v : Fin n → K) (l : List (Fin n)) (b : K) :
    b ≤ l.foldl (fun best i => if stored i then (if best > |v i| then best else |v i|) else best) b ∧
    ∀ i ∈ l, stored i = true →
      |v i| ≤ l.foldl (fun best i => if stored i then (if best > |v i| then best else |v i|) else best) b := by
  induction l generalizing b with
  | nil => exact ⟨le_rfl, fun i hi => absurd hi (List.not_mem_nil)⟩
  | cons j l ih =>
    simp only [List.foldl_cons]
    set b' := if stored j then (if b > |v j| then b else |v j|) else b with hb'
    have h1 : b ≤ b' := by
      rw [hb']; split_ifs with h h'
      · exact le_rfl
      · exact not_lt.mp h'
      · exact le_rfl
    have h2 : stored j = true → |v j| ≤ b' := by
      intro hs
      rw [hb', if_pos hs]; split_ifs with h'
      · exact h'.le
      · exact le_rfl
    obtain ⟨k1, k2⟩ := ih b'
    refine ⟨h1.trans k1, fun i hi hs => ?_⟩
    rcases List.mem_cons.mp hi with rfl | hi
    · exact (h2 hs).trans k1
    · exact k2 i hi hs

theorem le_maxStored {n : ℕ} {lowest : K} {stored : Fin n → Bool} {v : Fin n → K} {i : Fin n} (h : stored i = true) :
    |v i| ≤ maxStored lowest stored v :=
  (foldl_stored_ge stored v (List.finRange n) lowest).2 i (List.mem_finRange i) h

theorem foldl_stored_le {n : ℕ} (stored : Fin n → Bool) (v : Fin n → K) {r : K} (hv : ∀ i, stored i = true → |v i| ≤ r) (l : List (Fin n))
    (b : K) (hb : b ≤ r) : l.foldl (fun best i => if stored i then (if best > |v i| then best else |v i|) else best) b ≤ r := by
  induction l generalizing b with
  | nil => exact hb
  | cons j l ih =>
    simp only [List.foldl_cons]
    refine ih _ ?_
    split_ifs with h h'
    · exact hb
    · exact hv j h
    · exact hb

theorem maxStored_empty {n : ℕ} {lowest : K} {stored : Fin n → Bool} (h : ∀ i, stored i = false) (v : Fin n → K) :
    maxStored lowest stored v = lowest := by
  have : ∀ l : List (Fin n), l.foldl (fun best i => if stored i then (if best > |v i| then best else |v i|) else best) lowest = lowest := by
    intro l
    induction l with
    | nil => rfl
    | cons j l ih => simp only [List.foldl_cons, h j]; exact ih
  exact this _

/-- What the bounds below need of a variant, for matrices with the properties `okH` and `okA`: the norms bound the entries that are not zero. -/
structure Norms (var : Variant K N M) (okH : Matrix (Fin N) (Fin N) K → Prop) (okA : Matrix (Fin M) (Fin N) K → Prop) : Prop where
  eps0 : 0 < var.approxZero
  eps1 : var.approxZero ≤ 1
  colH : ∀ H, okH H → ∀ i j, H i j ≠ 0 → |H i j| ≤ var.colH H j
  colA : ∀ A, okA A → ∀ i j, A i j ≠ 0 → |A i j| ≤ var.colA A j
  rowA : ∀ A, okA A → ∀ i j, A i j ≠ 0 → |A i j| ≤ var.rowA A i
  hNorm : ∀ x, 0 ≤ x → x ≤ var.hNorm x
  scaleH : ∀ H (d e : Fin N → K), okH H → okH (Matrix.of fun i j => d i * H i j * e j)
  scaleA : ∀ A (d : Fin M → K) (e : Fin N → K), okA A → okA (Matrix.of fun i j => d i * A i j * e j)

/-- Entries outside the stored positions are zero. -/
def Supported {m n : ℕ} (s : Fin m → Fin n → Bool) (A : Matrix (Fin m) (Fin n) K) : Prop := ∀ i j, s i j = false → A i j = 0

theorem norms_dense {eps : K} (h0 : 0 < eps) (h1 : eps ≤ 1) :
    Norms (denseVariant eps : Variant K N M) (fun _ => True) (fun _ => True) where
  eps0 := h0
  eps1 := h1
  colH H _ i j _ := le_infNorm (fun i => H i j) i
  colA A _ i j _ := le_infNorm (fun i => A i j) i
  rowA A _ i j _ := le_infNorm (fun j => A i j) j
  hNorm x _ := by
    simp only [denseVariant]
    split_ifs with h
    · exact le_rfl
    · exact (not_lt.mp h).trans h1
  scaleH _ _ _ _ := trivial
  scaleA _ _ _ _ := trivial

theorem norms_sparse {z : K} (h0 : 0 < z) (h1 : z ≤ 1) (lowest : K) (sH : Fin N → Fin N → Bool) (sA : Fin M → Fin N → Bool) :
    Norms (sparseVariant z lowest sH sA) (Supported sH) (Supported sA) where
  eps0 := h0
  eps1 := h1
  colH H hH i j hne := le_maxStored (v := fun i => H i j) (stored := fun i => sH i j) (by
    by_contra h; exact hne (hH i j (by simpa using h)))
  colA A hA i j hne := le_maxStored (v := fun i => A i j) (stored := fun i => sA i j) (by
    by_contra h; exact hne (hA i j (by simpa using h)))
  rowA A hA i j hne := le_maxStored (v := fun j => A i j) (stored := fun j => sA i j) (by
    by_contra h; exact hne (hA i j (by simpa using h)))
  hNorm x _ := le_rfl
  scaleH H d e hH i j h := by simp [hH i j h]
  scaleA A d e hA i j h := by simp [hA i j h]

/-! ## One sweep -/

theorem guard_ge {n : ℕ} {z : K} (hz : z ≤ 1) {v : Fin n → K} {k : Fin n} {a : K} (h : a ≤ v k) : a ≤ guardZero z v k := by
  unfold guardZero
  split_ifs with h'
  · exact h.trans (h'.le.trans hz)
  · exact h

/-- An entry divided by the square roots of two numbers that bound it. -/
theorem scaled_le_one {sq : K → K} (hsq : IsSqrt sq) {a r s : K} (ha : |a| ≤ r) (hb : |a| ≤ s) (hr : 0 < r) (hs : 0 < s) :
    |(sq r)⁻¹ * a * (sq s)⁻¹| ≤ 1 := by
  have pr := hsq.pos hr
  have ps := hsq.pos hs
  have e : |a| ≤ sq r * sq s := by
    refine (pow_le_pow_iff_left₀ (abs_nonneg a) (by positivity) two_ne_zero).mp ?_
    have := mul_le_mul ha hb (abs_nonneg a) hr.le
    have h2 : (sq r * sq s) ^ 2 = r * s := by
      rw [mul_pow, pow_two, pow_two, (hsq r hr.le).2, (hsq s hs.le).2]
    rw [h2, pow_two]; exact this
  rw [abs_mul, abs_mul, abs_of_pos (inv_pos.mpr pr), abs_of_pos (inv_pos.mpr ps)]
  rw [show (sq r)⁻¹ * |a| * (sq s)⁻¹ = |a| / (sq r * sq s) by field_simp]
  rw [div_le_one (by positivity)]
  exact e

section loops
variable [NeZero N] [NeZero M]

/-- What a sweep of `compute` leaves behind. -/
structure Scaled (var : Variant K N M) (qp : QP K N M) : Prop where
  A : ∀ i j, |qp.A i j| ≤ 1
  h : ∀ i, |qp.h i| ≤ 1
  H : (∀ H j, 0 ≤ var.colH H j) → ∀ i j, |qp.H i j| ≤ N

theorem sweep_scaled {var : Variant K N M} {okH okA} (hv : Norms var okH okA) {sq : K → K} (hsq : IsSqrt sq) {P P' : State K N M}
    {qp qp' : QP K N M} {norm : K} (hH : okH qp.H) (hA : okA qp.A) (h : sweep var sq false P qp = some (P', qp', norm)) :
    Scaled var qp' ∧ okH qp'.H ∧ okA qp'.A := by
  unfold sweep at h
  simp only [Bool.false_eq_true, if_false] at h
  rw [Option.ite_none_left_eq_some] at h
  obtain ⟨hne, h⟩ := h
  simp only [Option.some.injEq, Prod.mk.injEq] at h
  obtain ⟨-, rfl, -⟩ := h
  set mD := invSqrt sq (guardZero var.approxZero fun j => max (var.colH qp.H j) (var.colA qp.A j)) with hmD
  set mE := invSqrt sq (guardZero var.approxZero (var.rowA qp.A)) with hmE
  set q1 := scaleMatrices 1 mD mE qp with hq1
  set dv := max (mean (var.colH q1.H)) (var.hNorm (infNorm q1.h)) with hdv
  have hh0 : infNorm q1.h ≤ dv := (hv.hNorm _ (infNorm_nonneg _)).trans (le_max_right _ _)
  have hdp : 0 < dv := lt_of_le_of_ne ((infNorm_nonneg _).trans hh0) (Ne.symm hne)
  have hg : 0 < 1 / dv := one_div_pos.mpr hdp
  have okq : okH q1.H := by
    have := hv.scaleH qp.H (fun i => 1 * mD i) mD hH
    exact this
  refine ⟨⟨fun i j => ?_, fun i => ?_, fun hc i j => ?_⟩, ?_, hv.scaleA qp.A mE mD hA⟩
  · change |mE i * qp.A i j * mD j| ≤ 1
    by_cases h0 : qp.A i j = 0
    · rw [h0]; simp
    · exact scaled_le_one hsq (guard_ge hv.eps1 (hv.rowA _ hA i j h0))
        (guard_ge hv.eps1 ((hv.colA _ hA i j h0).trans (le_max_right _ _))) (guardZero_pos hv.eps0 _ _) (guardZero_pos hv.eps0 _ _)
  · change |q1.h i * (1 / dv)| ≤ 1
    rw [abs_mul, abs_of_pos hg, mul_one_div, div_le_one hdp]
    exact (le_infNorm _ i).trans hh0
  · change |q1.H i j * (1 / dv)| ≤ N
    have hN : (0 : K) < N := Nat.cast_pos.mpr (NeZero.pos N)
    rw [abs_mul, abs_of_pos hg, mul_one_div, div_le_iff₀ hdp]
    have h1 : |q1.H i j| ≤ var.colH q1.H j := by
      by_cases h0 : q1.H i j = 0
      · rw [h0, abs_zero]; exact hc _ j
      · exact hv.colH _ okq i j h0
    have h2 : var.colH q1.H j ≤ ∑ k, var.colH q1.H k :=
      Finset.single_le_sum (f := fun k => var.colH q1.H k) (fun k _ => hc _ k) (Finset.mem_univ j)
    have h3 : ∑ k, var.colH q1.H k = N * mean (var.colH q1.H) := by
      unfold mean; field_simp
    calc |q1.H i j| ≤ N * mean (var.colH q1.H) := h3 ▸ h1.trans h2
      _ ≤ N * dv := mul_le_mul_of_nonneg_left (le_max_left _ _) hN.le
  · have := hv.scaleH q1.H (fun _ => 1) (fun _ => 1 / dv) okq
    simp only [one_mul] at this
    exact this

theorem loop_scaled {var : Variant K N M} {okH okA} (hv : Norms var okH okA) {sq : K → K} (hsq : IsSqrt sq) {cont : K → Bool} (fuel : ℕ)
    {P P' : State K N M} {qp qp' : QP K N M} {norm : K} (hH : okH qp.H) (hA : okA qp.A)
    (h : loop var sq false cont fuel P qp norm = some (P', qp')) (hs : Scaled var qp) : Scaled var qp' := by
  induction fuel generalizing P qp norm with
  | zero =>
    simp only [loop, Option.some.injEq, Prod.mk.injEq] at h
    rw [← h.2]; exact hs
  | succ fuel ih =>
    unfold loop at h
    by_cases hc : cont norm
    · rw [if_pos hc] at h
      cases hw : sweep var sq false P qp with
      | none => rw [hw] at h; cases h
      | some r =>
        obtain ⟨P1, qp1, norm1⟩ := r
        rw [hw] at h
        obtain ⟨k1, k2, k3⟩ := sweep_scaled hv hsq hH hA hw
        exact ih k2 k3 h k1
    · rw [if_neg hc] at h
      simp only [Option.some.injEq, Prod.mk.injEq] at h
      rw [← h.2]; exact hs

theorem compute_scaled {var : Variant K N M} {okH okA} (hv : Norms var okH okA) {sq : K → K} (hsq : IsSqrt sq) {P P' : State K N M}
    {qp qp' : QP K N M} (hH : okH qp.H) (hA : okA qp.A) (h : compute var sq P qp = some (P', qp')) : Scaled var qp' := by
  unfold compute at h
  rw [Option.map_eq_some_iff] at h
  obtain ⟨⟨P1, qp1⟩, h1, h2⟩ := h
  simp only [Prod.mk.injEq] at h2
  obtain ⟨rfl, rfl⟩ := h2
  unfold loop at h1
  rw [if_pos (by simp only [decide_eq_true_eq, tolerance, ge_iff_le]; norm_num)] at h1
  have key : Scaled var qp1 := by
    cases hw : sweep var sq false init qp with
    | none => rw [hw] at h1; cases h1
    | some r =>
      obtain ⟨P2, qp2, norm2⟩ := r
      rw [hw] at h1
      obtain ⟨k1, k2, k3⟩ := sweep_scaled hv hsq hH hA hw
      exact loop_scaled hv hsq 3 k2 k3 h1 k1
  exact ⟨key.A, key.h, key.H⟩

/-! ## C229 -/

/-- C229. Dense data after `compute`: the entries of the constraint matrix and of the linear term are at most one, those of the Hessian at most
the number of variables, whatever their size before. -/
theorem dense_scaled {eps : K} (h0 : 0 < eps) (h1 : eps ≤ 1) {sq : K → K} (hsq : IsSqrt sq) {P P' : State K N M} {qp qp' : QP K N M}
    (h : compute (denseVariant eps) sq P qp = some (P', qp')) :
    (∀ i j, |qp'.A i j| ≤ 1) ∧ (∀ i, |qp'.h i| ≤ 1) ∧ ∀ i j, |qp'.H i j| ≤ N := by
  have := compute_scaled (norms_dense h0 h1) hsq (qp := qp) trivial trivial h
  exact ⟨this.A, this.h, this.H fun H j => infNorm_nonneg fun i => H i j⟩

/-- C229. Sparse data after `compute`, if it is defined: the same for the constraint matrix and the linear term. -/
theorem sparse_scaled {lowest : K} {sH : Fin N → Fin N → Bool} {sA : Fin M → Fin N → Bool} {sq : K → K} (hsq : IsSqrt sq)
    {P P' : State K N M} {qp qp' : QP K N M} (hH : Supported sH qp.H) (hA : Supported sA qp.A)
    (h : compute (sparseVariant (1 / 10000) lowest sH sA) sq P qp = some (P', qp')) :
    (∀ i j, |qp'.A i j| ≤ 1) ∧ ∀ i, |qp'.h i| ≤ 1 := by
  have := compute_scaled (norms_sparse (by norm_num) (by norm_num) lowest sH sA) hsq hH hA h
  exact ⟨this.A, this.h⟩

/-- C229. If every column of the sparse Hessian stores an entry, its scaled entries are at most the number of variables. -/
theorem sparse_scaled_hessian {lowest : K} {sH : Fin N → Fin N → Bool} {sA : Fin M → Fin N → Bool} {sq : K → K} (hsq : IsSqrt sq)
    {P P' : State K N M} {qp qp' : QP K N M} (hH : Supported sH qp.H) (hA : Supported sA qp.A) (hcol : ∀ j, ∃ i, sH i j = true)
    (h : compute (sparseVariant (1 / 10000) lowest sH sA) sq P qp = some (P', qp')) (i j : Fin N) : |qp'.H i j| ≤ N := by
  refine (compute_scaled (norms_sparse (by norm_num) (by norm_num) lowest sH sA) hsq hH hA h).H (fun H j => ?_) i j
  obtain ⟨i, hi⟩ := hcol j
  exact (abs_nonneg (H i j)).trans (le_maxStored (v := fun i => H i j) (stored := fun i => sH i j) hi)

/-- C229. A column of the sparse Hessian without stored entries hides the whole Hessian from the cost factor: with `h = 0`, `compute` divides by
zero, although the Hessian is not zero. (`lowest` is the lowest number of the scalar type.) -/
theorem sparse_empty_column {lowest : K} {sH : Fin N → Fin N → Bool} {sA : Fin M → Fin N → Bool} (hl : lowest ≤ -(N : K)) {sq : K → K}
    (hsq : IsSqrt sq) (P : State K N M) (qp : QP K N M) (hH : Supported sH qp.H) (hsym : qp.Hᵀ = qp.H) (hh : qp.h = 0)
    {j0 : Fin N} (hempty : ∀ i, sH i j0 = false) : compute (sparseVariant (1 / 10000) lowest sH sA) sq P qp = none := by
  have hv := norms_sparse (K := K) (z := 1 / 10000) (by norm_num) (by norm_num) lowest sH sA
  have hN : (0 : K) ≤ N := Nat.cast_nonneg N
  have hs : sweep (sparseVariant (1 / 10000) lowest sH sA) sq false init qp = none := by
    unfold sweep
    simp only [Bool.false_eq_true, if_false]
    set mD := invSqrt sq (guardZero (sparseVariant (1 / 10000) lowest sH sA : Variant K N M).approxZero fun j =>
      max ((sparseVariant (1 / 10000) lowest sH sA : Variant K N M).colH qp.H j)
        ((sparseVariant (1 / 10000) lowest sH sA : Variant K N M).colA qp.A j)) with hmD
    set mE := invSqrt sq (guardZero (sparseVariant (1 / 10000) lowest sH sA : Variant K N M).approxZero
      ((sparseVariant (1 / 10000) lowest sH sA : Variant K N M).rowA qp.A)) with hmE
    rw [if_pos]
    have e1 : (scaleMatrices 1 mD mE qp).h = 0 := by funext i; simp [scaleMatrices, hh]
    have e3 : infNorm (0 : Fin N → K) = 0 := by
      rcases infNorm_attained (0 : Fin N → K) with h | ⟨i, h⟩
      · exact h
      · rw [← h]; simp
    have hent : ∀ i j, |(scaleMatrices 1 mD mE qp).H i j| ≤ 1 := by
      intro i j
      change |1 * mD i * qp.H i j * mD j| ≤ 1
      rw [one_mul]
      by_cases h0 : qp.H i j = 0
      · rw [h0]; simp
      · have hs : qp.H j i = qp.H i j := congrFun (congrFun hsym i) j
        refine scaled_le_one hsq (guard_ge hv.eps1 ?_) (guard_ge hv.eps1 ?_) (guardZero_pos hv.eps0 _ _) (guardZero_pos hv.eps0 _ _)
        · rw [← hs]
          exact (hv.colH _ hH j i (by rw [hs]; exact h0)).trans (le_max_left _ _)
        · exact (hv.colH _ hH i j h0).trans (le_max_left _ _)
    have hc : ∀ j, (sparseVariant (1 / 10000) lowest sH sA : Variant K N M).colH (scaleMatrices 1 mD mE qp).H j ≤ 1 := fun j =>
      foldl_stored_le (fun i => sH i j) (fun i => (scaleMatrices 1 mD mE qp).H i j) (fun i _ => hent i j) _ lowest
        (hl.trans (by linarith))
    have hc0 : (sparseVariant (1 / 10000) lowest sH sA : Variant K N M).colH (scaleMatrices 1 mD mE qp).H j0 = lowest :=
      maxStored_empty hempty _
    have e4 : mean ((sparseVariant (1 / 10000) lowest sH sA : Variant K N M).colH (scaleMatrices 1 mD mE qp).H) ≤ 0 := by
      unfold mean
      refine div_nonpos_of_nonpos_of_nonneg ?_ hN
      rw [← Finset.add_sum_erase _ _ (Finset.mem_univ j0), hc0]
      have : ∑ j ∈ Finset.univ.erase j0, (sparseVariant (1 / 10000) lowest sH sA : Variant K N M).colH (scaleMatrices 1 mD mE qp).H j
          ≤ ∑ _j ∈ Finset.univ.erase j0, (1 : K) := Finset.sum_le_sum fun j _ => hc j
      have h2 : ∑ _j ∈ (Finset.univ : Finset (Fin N)).erase j0, (1 : K) ≤ N := by
        rw [Finset.sum_const, nsmul_eq_mul, mul_one]
        have := Finset.card_le_univ ((Finset.univ : Finset (Fin N)).erase j0)
        rw [Fintype.card_fin] at this
        exact_mod_cast this
      linarith
    rw [e1, e3]
    change max _ (id 0) = 0
    exact max_eq_right e4
  unfold compute loop
  rw [if_pos (by simp only [decide_eq_true_eq, tolerance, ge_iff_le]; norm_num), hs]
  rfl

end loops

/-- A linear program in two variables with one constraint `s² x₀ + x₁`. -/
def flatQp (s : K) : QP K 2 1 where
  H := 0
  h := 0
  A := Matrix.of fun _ j => if j = 0 then s ^ 2 else 1
  Alb := fun _ => -1
  Aub := fun _ => 1
  xlb := fun _ => -1
  xub := fun _ => 1

/-- C229. Columns of size one are not what `compute` aims at: the result for `flatQp s`, whose columns have norms `s²` and `1`, has columns of norms `s` and
`1`. Only one of the four sweeps takes place, so for a column of norm `1e-12` the scaled norm is `1e-6`. -/
theorem dense_column_stays_small {eps s : K} (heps : 0 < eps) (hs0 : 0 < s) (hs1 : s ≤ 1) (he : eps ≤ s ^ 2) (he1 : eps ≤ 1) {sq : K → K}
    (hsq : IsSqrt sq) (P : State K 2 1) :
    ∃ P' qp', compute (denseVariant eps) sq P (flatQp s) = some (P', qp') ∧ qp'.H = 0 ∧ qp'.A 0 0 = s ∧ qp'.A 0 1 = 1 := by
  have uniq : ∀ a b : K, 0 ≤ b → b * b = a → sq a = b := by
    intro a b hb hab
    obtain ⟨h1, h2⟩ := hsq a (hab ▸ mul_self_nonneg b)
    exact (mul_self_inj h1 hb).mp (by rw [h2, hab])
  have q1 : sq 1 = 1 := uniq _ _ zero_le_one (by ring)
  have q2 : sq (s ^ 2) = s := uniq _ _ hs0.le (by ring)
  obtain ⟨P', qp', hc, hP, hr⟩ := dense_compute_restores heps hsq P (flatQp s)
  have hh : HNormNonneg (denseVariant eps : Variant K 2 1) := fun x hx => (denseVariant_hNorm heps x hx).le
  have hsc := (compute_eq_scale (var := denseVariant eps) heps hh hsq hc).2
  have hsing := single_sweep (eps := eps) (sq := sq) (P := P) (qp := flatQp s)
    (Or.inr ⟨0, 1, by simp [flatQp]; norm_num⟩)
  rw [hc] at hsing
  have hrow : infNorm (fun j => (flatQp s).A 0 j) = 1 := by
    refine le_antisymm ((infNorm_le_iff _).mpr ⟨zero_le_one, fun j => ?_⟩) ?_
    · fin_cases j
      · change |s ^ 2| ≤ 1
        rw [abs_of_pos (pow_pos hs0 2)]; nlinarith
      · simp [flatQp]
    · have := le_infNorm (fun j => (flatQp s).A 0 j) 1
      simpa [flatQp] using this
  have hcol : ∀ j, infNorm (fun i => (flatQp s).A i j) = if j = 0 then s ^ 2 else 1 := by
    intro j
    have h0 : 0 < (if j = 0 then s ^ 2 else 1 : K) := by split_ifs <;> positivity
    refine le_antisymm ((infNorm_le_iff _).mpr ⟨h0.le, fun i => ?_⟩) ?_
    · change |(if j = 0 then s ^ 2 else 1 : K)| ≤ _
      rw [abs_of_pos h0]
    · have := le_infNorm (fun i => (flatQp s).A i j) 0
      change |(if j = 0 then s ^ 2 else 1 : K)| ≤ _ at this
      rwa [abs_of_pos h0] at this
  have hcolH : ∀ j, infNorm (fun i => (flatQp s).H i j) = 0 := by
    intro j
    refine le_antisymm ((infNorm_le_iff _).mpr ⟨le_rfl, fun i => by simp [flatQp]⟩) (infNorm_nonneg _)
  have hnD : ∀ j, guardZero eps (fun j => max (infNorm fun i => (flatQp s).H i j) (infNorm fun i => (flatQp s).A i j)) j =
      if j = 0 then s ^ 2 else 1 := by
    intro j
    have h0 : 0 ≤ (if j = 0 then s ^ 2 else 1 : K) := by split_ifs <;> positivity
    unfold guardZero
    simp only [hcolH, hcol, max_eq_right h0]
    rw [if_neg]
    split_ifs
    · exact not_lt.mpr he
    · exact not_lt.mpr he1
  have hnE : guardZero eps (fun i => infNorm fun j => (flatQp s).A i j) 0 = 1 := by
    change (if infNorm (fun j => (flatQp s).A 0 j) < eps then 1 else infNorm fun j => (flatQp s).A 0 j) = 1
    rw [hrow, if_neg (not_lt.mpr he1)]
  symm at hsing
  rw [Option.map_eq_some_iff] at hsing
  obtain ⟨⟨P1, qp1, n1⟩, k1, k2⟩ := hsing
  unfold sweep at k1
  simp only [Bool.false_eq_true, if_false] at k1
  rw [Option.ite_none_left_eq_some] at k1
  obtain ⟨-, k1⟩ := k1
  simp only [Option.some.injEq, Prod.mk.injEq] at k1 k2
  obtain ⟨-, kq, -⟩ := k1
  obtain ⟨-, rfl⟩ := k2
  refine ⟨P', _, hc, ?_, ?_, ?_⟩
  · rw [hsc]
    ext i j
    simp [scale, scaleBounds, scaleMatrices, flatQp]
  · rw [← kq]
    change (sq (guardZero eps (fun i => infNorm fun j => (flatQp s).A i j) 0))⁻¹ * (flatQp s).A 0 0 *
      (sq (guardZero eps (fun j => max (infNorm fun i => (flatQp s).H i j) (infNorm fun i => (flatQp s).A i j)) 0))⁻¹ = s
    rw [hnE, hnD, q1, if_pos rfl, q2]
    change 1⁻¹ * s ^ 2 * s⁻¹ = s
    field_simp
  · rw [← kq]
    change (sq (guardZero eps (fun i => infNorm fun j => (flatQp s).A i j) 0))⁻¹ * (flatQp s).A 0 1 *
      (sq (guardZero eps (fun j => max (infNorm fun i => (flatQp s).H i j) (infNorm fun i => (flatQp s).A i j)) 1))⁻¹ = 1
    rw [hnE, hnD, q1, if_neg (by decide), q1]
    change (1 : K)⁻¹ * 1 * 1⁻¹ = 1
    norm_num

/-! ## Non-vacuity -/

/-- A sparse QP whose Hessian `diag(4, ·)` stores nothing in its second column. -/
def holeQp : QP ℚ 2 1 := { flatQp (1 / 2) with H := Matrix.of fun i j => if i = 0 ∧ j = 0 then 4 else 0 }

/-- The hypotheses of `sparse_empty_column` hold for it, over the reals. -/
example (lowest : ℝ) (hl : lowest ≤ -2) (P : State ℝ 2 1) :
    compute (sparseVariant (1 / 10000) lowest (fun i j => decide (i = 0 ∧ j = 0)) (fun _ _ => true)) Real.sqrt P
      { flatQp (1 / 2) with H := Matrix.of fun i j => if i = 0 ∧ j = 0 then 4 else 0 } = none :=
  sparse_empty_column (by simpa using hl) (fun a ha => ⟨Real.sqrt_nonneg a, Real.mul_self_sqrt ha⟩) P _
    (fun i j h => by simp only [decide_eq_false_iff_not] at h; exact if_neg h)
    (by ext i j; simp only [Matrix.transpose_apply, Matrix.of_apply, and_comm]) rfl (j0 := 1) (by decide)

/-- With `h ≠ 0` the same Hessian is multiplied by `1 / ‖h‖`: the scaled entry is `1024`, although there are two variables. -/
example : ((compute (sparseVariant (1 / 10000) (-10 ^ 6) (fun i j => decide (i = 0 ∧ j = 0)) (fun _ _ => true))
    (fun a => if a = 4 then 2 else if a = 1 / 4 then 1 / 2 else a) init { holeQp with h := fun j => if j = 0 then 1 / 512 else 0 }).map fun r =>
    [r.2.H 0 0, r.2.h 0, r.2.A 0 0, r.2.A 0 1]) = some [1024, 1, 1 / 8, 1] := by
  decide +kernel

/-- Dense data with entries up to `256` are brought to at most one. -/
example : ((compute (denseVariant (1 / 2 ^ 52)) (fun a : ℚ => if a = 256 then 16 else if a = 4 then 2 else a) init
    (tinyQP 4 64 256 0 1 0 1)).map fun r => [r.2.H 0 0, r.2.h 0, r.2.A 0 0]) = some [1 / 256, 1, 1] := by
  decide +kernel

end PolyMPC.Ruiz
