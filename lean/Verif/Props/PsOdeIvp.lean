import Verif.Props.PsOde

/-! # `PSODESolver` (C155): for dynamics affine in the state there is one answer, and it is exact for polynomial solutions -/

namespace PolyMPC.PsOde
open Ocp CasCheb GenOcp Spec Polynomial Nmpc

set_option linter.unusedSectionVars false

section
variable (d : Dims)

theorem MA_zero {A : ℕ → ℕ → ℝ} (h : ∀ i j, A i j = 0) : MA d A = 0 := by
  ext r c; unfold MA; simp [h]

/-- The matrix of the collocation conditions is singular for finitely many horizons at most, and never without state feedback. -/
theorem det_finite (hS : 1 ≤ d.S) (hN : 1 ≤ d.N) (A : ℕ → ℕ → ℝ) :
    ∃ E : Finset ℝ, ((∀ i j, A i j = 0) → E = ∅) ∧ ∀ T, T ∉ E → (M0 d - CasCheb.tScale d 0 T • MA d A).det ≠ 0 := by
  by_cases hA : ∀ i j, A i j = 0
  · refine ⟨∅, fun _ => rfl, fun T _ => ?_⟩
    rw [MA_zero d hA, smul_zero, sub_zero]
    exact M0_det d hS hN
  · let M : Matrix (Fin (nFree d)) (Fin (nFree d)) ℝ[X] := (M0 d).map C - (X : ℝ[X]) • (MA d A).map C
    have hev : ∀ c : ℝ, M.det.eval c = (M0 d - c • MA d A).det := by
      intro c
      have := RingHom.map_det (Polynomial.evalRingHom c) M
      rw [coe_evalRingHom] at this
      rw [this]
      congr 1
      ext r q
      simp [M, Matrix.sub_apply, Matrix.smul_apply]
      ring
    have hne : M.det ≠ 0 := by
      intro h0
      have := hev 0
      rw [h0, eval_zero, zero_smul, sub_zero] at this
      exact M0_det d hS hN this.symm
    refine ⟨M.det.roots.toFinset.image fun c => (2 * d.S : ℕ) * c, fun h => absurd h hA, fun T hT h0 => hT ?_⟩
    refine Finset.mem_image.2 ⟨CasCheb.tScale d 0 T, ?_, ?_⟩
    · rw [Multiset.mem_toFinset, mem_roots hne]
      show M.det.eval _ = 0
      rw [hev, h0]
    · unfold CasCheb.tScale
      have : ((2 * d.S : ℕ) : ℝ) ≠ 0 := by
        have : 0 < 2 * d.S := by omega
        exact_mod_cast this.ne'
      rw [sub_zero]
      field_simp

end

section
variable {d : Dims} {ode : Ode ℝ} {o : Props ℝ}

/-- The right-hand side is affine in the state, for the parameters `p`. -/
def AffineIn (ode : Ode ℝ) (NX : ℕ) (p : ℕ → ℝ) (A : ℕ → ℕ → ℝ) (b : (ℕ → ℝ) → ℕ → ℝ) : Prop :=
  ∀ x u, ∀ i < NX, ode.f x u p i = ∑ j ∈ Finset.range NX, A i j * x j + b u i

theorem row_lin (ho : o.on = false) {p : ℕ → ℝ} {A : ℕ → ℕ → ℝ} {b : (ℕ → ℝ) → ℕ → ℝ} (hf : AffineIn ode d.NX (part d.NP p 0) A b) (T : ℝ) (v : ℕ → ℝ)
    (r : Fin (nFree d)) :
    collocateDynamics d (scheme d.N) (funSode d ode o).val 0 T v (fun i => v (d.VARX + i)) p r
      = (M0 d - CasCheb.tScale d 0 T • MA d A).mulVec (fun c => v c) r
        + (∑ i ∈ Finset.range d.NX, compDiff (scheme d.N) d.S d.N d.NX r (nFree d + i) * v (nFree d + i)
          - CasCheb.tScale d 0 T * b (uAt d v (r / d.NX)) (r % d.NX)) := by
  refine row_affine d (b := fun k => b (uAt d v k)) v _ _ 0 T (fun k _ i hi => ?_) r
  rw [val_off ho, hf _ _ i hi]
  congr 1
  refine Finset.sum_congr rfl fun j hj => ?_
  unfold xAt part
  rw [if_pos (Finset.mem_range.1 hj)]

/-- **C155.** For dynamics affine in the state and for all horizons but finitely many (for all if the dynamics do not depend on the state), the program
with given initial state and controls has exactly one solution. -/
theorem ivp_unique (hS : 1 ≤ d.S) (hN : 1 ≤ d.N) (ho : o.on = false) (hb : buildOk d ode o = true) {p : ℕ → ℝ} {A : ℕ → ℕ → ℝ} {b : (ℕ → ℝ) → ℕ → ℝ}
    (hf : AffineIn ode d.NX (part d.NP p 0) A b) :
    ∃ E : Finset ℝ, ((∀ i j, A i j = 0) → E = ∅) ∧ ∀ T, T ∉ E →
      (∀ x0 u : ℕ → ℝ, ∃ v q, nlp d (scheme d.N) ode o T p v = some q ∧ (∀ r < q.n, q.g r = 0) ∧
        xAt d v (d.S * d.N) = part d.NX x0 0 ∧ ∀ c < d.VARU, v (d.VARX + c) = u c) ∧
      ∀ v v' q q', nlp d (scheme d.N) ode o T p v = some q → nlp d (scheme d.N) ode o T p v' = some q' →
        (∀ r < q.n, q.g r = 0) → (∀ r < q'.n, q'.g r = 0) → xAt d v (d.S * d.N) = xAt d v' (d.S * d.N) →
        (∀ k < d.NN, uAt d v k = uAt d v' k) → ∀ r < d.VARX, v r = v' r := by
  obtain ⟨E, hE, hdet⟩ := det_finite d hS hN A
  refine ⟨E, hE, fun T hT => ?_⟩
  have hu : IsUnit (M0 d - CasCheb.tScale d 0 T • MA d A) := (Matrix.isUnit_iff_isUnit_det _).2 (isUnit_iff_ne_zero.2 (hdet T hT))
  have hn : d.VARX - d.NX = nFree d := by rw [varx_split, Nat.add_sub_cancel]
  have hxl : ∀ (v : ℕ → ℝ), ∀ i < d.NX, xAt d v (d.S * d.N) i = v (nFree d + i) := fun v i hi => by
    unfold xAt part; rw [if_pos hi]; rfl
  constructor
  · intro x0 u
    let w : Fin (nFree d) → ℝ := fun r => -(∑ i ∈ Finset.range d.NX, compDiff (scheme d.N) d.S d.N d.NX r (nFree d + i) * x0 i
      - CasCheb.tScale d 0 T * b (part d.NU u (r / d.NX * d.NU)) (r % d.NX))
    obtain ⟨z, hz⟩ := (Matrix.mulVec_surjective_iff_isUnit.2 hu) w
    let v : ℕ → ℝ := fun c => if h : c < nFree d then z ⟨c, h⟩ else if c < d.VARX then x0 (c - nFree d) else u (c - d.VARX)
    have hvv : (fun c : Fin (nFree d) => v c) = z := by funext c; exact dif_pos c.2
    have hvx : ∀ i < d.NX, v (nFree d + i) = x0 i := fun i hi => by
      show dite _ _ _ = _
      rw [dif_neg (by omega), if_pos (by rw [varx_split]; omega), Nat.add_sub_cancel_left]
    have hvu : ∀ c, v (d.VARX + c) = u c := fun c => by
      show dite _ _ _ = _
      rw [dif_neg (by rw [varx_split]; omega), if_neg (by omega), Nat.add_sub_cancel_left]
    have hua : ∀ k, uAt d v k = part d.NU u (k * d.NU) := fun k => by
      rw [← uAt_part]
      funext i; unfold part
      simp only [hvu]
    obtain ⟨q, hq⟩ : ∃ q, nlp d (scheme d.N) ode o T p v = some q := by
      unfold nlp; rw [if_pos hb]; exact ⟨_, rfl⟩
    refine ⟨v, q, hq, fun r hr => ?_, ?_, fun c _ => hvu c⟩
    · obtain ⟨-, e2, -, e4⟩ := nlp_ok hq
      rw [e2, hn] at hr
      have e := row_lin ho hf T v ⟨r, hr⟩
      rw [hvv, hz, hua] at e
      rw [e4]
      refine e.trans ?_
      have : ∑ i ∈ Finset.range d.NX, compDiff (scheme d.N) d.S d.N d.NX r (nFree d + i) * v (nFree d + i)
          = ∑ i ∈ Finset.range d.NX, compDiff (scheme d.N) d.S d.N d.NX r (nFree d + i) * x0 i :=
        Finset.sum_congr rfl fun i hi => by rw [hvx i (Finset.mem_range.1 hi)]
      rw [this]
      show -_ + _ = 0
      ring
    · funext i
      by_cases hi : i < d.NX
      · rw [hxl v i hi, hvx i hi]; unfold part; rw [if_pos hi, Nat.zero_add]
      · unfold xAt part; rw [if_neg hi, if_neg hi]
  · intro v v' q q' hq hq' hz hz' hx hc r hr
    obtain ⟨-, e2, -, e4⟩ := nlp_ok hq
    obtain ⟨-, e2', -, e4'⟩ := nlp_ok hq'
    have hx' : ∀ i < d.NX, v (nFree d + i) = v' (nFree d + i) := fun i hi => by rw [← hxl v i hi, ← hxl v' i hi, hx]
    have hinj : (fun c : Fin (nFree d) => v c) = fun c : Fin (nFree d) => v' c := by
      refine Matrix.mulVec_injective_iff_isUnit.2 hu ?_
      funext r
      have h1 := hz r (by rw [e2, hn]; exact r.2)
      have h2 := hz' r (by rw [e2', hn]; exact r.2)
      rw [e4, row_lin ho hf T v r] at h1
      rw [e4', row_lin ho hf T v' r] at h2
      obtain ⟨hx0, hk, -⟩ := nFree_split d r.2
      have h3 : ∑ i ∈ Finset.range d.NX, compDiff (scheme d.N) d.S d.N d.NX r (nFree d + i) * v (nFree d + i)
          = ∑ i ∈ Finset.range d.NX, compDiff (scheme d.N) d.S d.N d.NX r (nFree d + i) * v' (nFree d + i) :=
        Finset.sum_congr rfl fun i hi => by rw [hx' i (Finset.mem_range.1 hi)]
      rw [h3, hc _ (show r.val / d.NX < d.NN by unfold Dims.NN; omega)] at h1
      exact add_right_cancel (h1.trans h2.symm)
    by_cases h : r < nFree d
    · exact congrFun hinj ⟨r, h⟩
    · have : r = nFree d + (r - nFree d) := by omega
      rw [this]
      exact hx' _ (by rw [varx_split] at hr; omega)

/-- The point with given node states and controls. -/
def pack (d : Dims) (x u : ℕ → ℕ → ℝ) : ℕ → ℝ := fun r =>
  if r < d.VARX then x (r / d.NX) (r % d.NX) else u ((r - d.VARX) / d.NU) ((r - d.VARX) % d.NU)

theorem xAt_pack (x u : ℕ → ℕ → ℝ) {k : ℕ} (hk : k < d.NN) : xAt d (pack d x u) k = part d.NX (x k) 0 := by
  funext i
  unfold xAt part
  by_cases hi : i < d.NX
  · rw [if_pos hi, if_pos hi]
    unfold pack
    rw [if_pos (xIdx_lt d hk hi), Nat.add_comm, Nat.add_mul_div_right _ _ (by omega), Nat.div_eq_of_lt hi, Nat.add_mul_mod_self_right,
      Nat.mod_eq_of_lt hi, Nat.zero_add, Nat.zero_add]
  · rw [if_neg hi, if_neg hi]

theorem uAt_pack (x u : ℕ → ℕ → ℝ) (k : ℕ) : uAt d (pack d x u) k = part d.NU (u k) 0 := by
  rw [← uAt_part]
  funext i
  unfold part
  by_cases hi : i < d.NU
  · rw [if_pos hi, if_pos hi]
    unfold pack
    beta_reduce
    rw [if_neg (by omega), Nat.add_sub_cancel_left, Nat.add_comm, Nat.add_mul_div_right _ _ (by omega), Nat.div_eq_of_lt hi, Nat.add_mul_mod_self_right,
      Nat.mod_eq_of_lt hi, Nat.zero_add, Nat.zero_add]
  · rw [if_neg hi, if_neg hi]

theorem node_le {s l : ℕ} (hs : s < d.S) (hl : l ≤ d.N) : s * d.N + l < d.NN := node_lt d hs hl

/-- A collocation solution is a feasible point. -/
theorem pack_rows (hS : 1 ≤ d.S) (hN : 1 ≤ d.N) {T : ℝ} (hT : 0 < T) (ho : o.on = false) {p : ℕ → ℝ} {A : ℕ → ℕ → ℝ} {b : (ℕ → ℝ) → ℕ → ℝ}
    (hf : AffineIn ode d.NX (part d.NP p 0) A b) {x u : ℕ → ℕ → ℝ} (hu : ∀ k, part d.NU (u k) 0 = u k)
    (h : Collocates d.S d.N d.NX (fun x u => ode.f x u (part d.NP p 0)) T x u) {q : Nmpc.Nlp ℝ} (hq : nlp d (scheme d.N) ode o T p (pack d x u) = some q) :
    ∀ r < q.n, q.g r = 0 := by
  rw [rows_off hS hN hT ho hq]
  intro s hs i hi
  obtain ⟨Q, h1, h2, h3⟩ := h s hs i hi
  refine ⟨Q, h1, fun l hl => ?_, fun j hj => ?_⟩
  · rw [h2 l hl, xAt_pack x u (node_le hs hl)]
    unfold part; rw [if_pos hi, Nat.zero_add]
  · rw [h3 j hj, xAt_pack x u (node_le hs hj.le), uAt_pack, hu]
    beta_reduce
    rw [hf _ _ i hi, hf _ _ i hi]
    congr 1
    refine Finset.sum_congr rfl fun m hm => ?_
    unfold part; rw [if_pos (Finset.mem_range.1 hm), Nat.zero_add]

/-- The nodes are in the horizon. -/
theorem time_range (hS : 1 ≤ d.S) (_hN : 1 ≤ d.N) {T : ℝ} (hT : 0 < T) {s l : ℕ} (hs : s < d.S) (_hl : l ≤ d.N) :
    0 ≤ segTime d.S d.N 0 T s l ∧ segTime d.S d.N 0 T s l ≤ T := by
  have hS' : (0 : ℝ) < d.S := by exact_mod_cast hS
  have hs' : (s : ℝ) + 1 ≤ d.S := by exact_mod_cast hs
  have h1 : 0 < T / d.S := by positivity
  have h2 : T / d.S * d.S = T := by field_simp
  have c1 := Real.cos_le_one (l * (Real.pi / d.N))
  have c2 := Real.neg_one_le_cos (l * (Real.pi / d.N))
  have hs0 : (0 : ℝ) ≤ s := Nat.cast_nonneg s
  unfold segTime
  rw [sub_zero]
  constructor
  · nlinarith [mul_le_mul_of_nonneg_left hs' h1.le]
  · nlinarith [mul_nonneg hs0 h1.le]

variable (solver : Args ℝ → Nmpc.Res ℝ) {ob : Obj ℝ} {P : DM ℝ} {p : ℕ → ℝ}

/-- **C155.** For dynamics affine in the state and all horizons but finitely many (all, if the dynamics do not depend on the state), if the solver returns a
feasible point and polynomials of degree at most the polynomial order solve the initial value problem with the constant control `u`, then `solve` returns
their values: at the end of the horizon, or with `full` at all nodes. -/
theorem solve_exact (hS : 1 ≤ d.S) (hN : 1 ≤ d.N) (ho : o.on = false) (hob : ob.scale = false) {A : ℕ → ℕ → ℝ} {b : (ℕ → ℝ) → ℕ → ℝ}
    (hf : AffineIn ode d.NX (part d.NP p 0) A b) (hp : argCol d.NP P = some p) :
    ∃ E : Finset ℝ, ((∀ i j, A i j = 0) → E = ∅) ∧ ∀ T, 0 < T → T ∉ E → ∀ x0 u : ℕ → ℝ, ∃ a y e,
      solve d solver ob (DM.col d.NX x0) (DM.col d.NU u) P true = some ({ ob with arg := a }, y) ∧
      solve d solver ob (DM.col d.NX x0) (DM.col d.NU u) P false = some ({ ob with arg := a }, e) ∧
      (Feasible d ode o T a (solver a).x → ∀ Q : ℕ → ℝ[X], (∀ i < d.NX, (Q i).natDegree ≤ d.N ∧ (Q i).eval 0 = x0 i) →
        (∀ t, 0 ≤ t → t ≤ T → ∀ i < d.NX, (Q i).derivative.eval t = ode.f (fun j => (Q j).eval t) (part d.NU u 0) (part d.NP p 0) i) →
        (∀ i < d.NX, e.a i 0 = (Q i).eval T) ∧
        ∀ s < d.S, ∀ l ≤ d.N, ∀ i < d.NX, y.a ((s * d.N + l) * d.NX + i) 0 = (Q i).eval (segTime d.S d.N 0 T s l)) := by
  by_cases hb : buildOk d ode o = true
  swap
  · refine ⟨∅, fun _ => rfl, fun T hT _ x0 u => ?_⟩
    obtain ⟨a, h1, -⟩ := solve_meaning (ode := ode) (T := T) solver hS hN hT ho hob x0 u hp
    obtain ⟨y, hy⟩ := h1 true
    obtain ⟨e, he⟩ := h1 false
    refine ⟨a, y, e, hy, he, fun hfe => ?_⟩
    obtain ⟨q, hq, -⟩ := hfe
    unfold nlp at hq
    rw [if_neg hb] at hq; cases hq
  obtain ⟨E, hE, hex⟩ := ivp_unique hS hN ho hb hf
  refine ⟨E, hE, fun T hT hTE x0 u => ?_⟩
  obtain ⟨a, ha, hap, hx, hu, -, -⟩ := prepare_col (ob := ob) x0 (fun i => u (i % d.NU)) hp
  have hsol : ∀ full, solve d solver ob (DM.col d.NX x0) (DM.col d.NU u) P full
      = some ({ ob with arg := a }, if full then DM.col d.VARX (solver a).x else DM.col d.NX (solver a).x) := by
    intro full
    unfold solve initial control extract
    rw [if_neg (by exact fun h => h rfl), hob]
    show (prepare d ob (DM.col d.NX x0) ((DM.col d.NU u).rep d.NN) P).bind _ = _
    rw [rep_col, ha]
    cases full <;> rfl
  refine ⟨a, _, _, hsol true, hsol false, fun hfe Q hQ hode => ?_⟩
  obtain ⟨hx0, hua⟩ := feasible_fixed hfe hx hu
  obtain ⟨q, hq, -, hr⟩ := hfe
  rw [hap] at hq
  -- the exact trajectory
  let X : ℕ → ℕ → ℝ := fun k i => if k = d.S * d.N then x0 i else (Q i).eval (segTime d.S d.N 0 T (k / d.N) (k % d.N))
  have hSr : (d.S : ℝ) ≠ 0 := by exact_mod_cast (by omega : d.S ≠ 0)
  have hend : segTime d.S d.N 0 T (d.S - 1) d.N = 0 := by
    rw [segTime_eq, (points_ends hN).2]
    have : ((d.S - 1 : ℕ) : ℝ) = d.S - 1 := by push_cast [Nat.cast_sub hS]; ring
    rw [this]; field_simp; ring
  have hX : ∀ s < d.S, ∀ l ≤ d.N, ∀ i < d.NX, X (s * d.N + l) i = (Q i).eval (segTime d.S d.N 0 T s l) := by
    intro s hs l hl i hi
    have hle : (s + 1) * d.N ≤ d.S * d.N := Nat.mul_le_mul_right _ hs
    rw [Nat.add_mul, Nat.one_mul] at hle
    show ite _ _ _ = _
    by_cases hlast : s * d.N + l = d.S * d.N
    · rw [if_pos hlast]
      have hl' : l = d.N := by omega
      have hs' : s = d.S - 1 := by
        have : (s + 1) * d.N = d.S * d.N := by rw [Nat.add_mul, Nat.one_mul]; omega
        have := Nat.eq_of_mul_eq_mul_right (by omega) this
        omega
      rw [hl', hs', hend, (hQ i hi).2]
    · rw [if_neg hlast]
      rcases Nat.lt_or_eq_of_le hl with h | h
      · rw [Nat.add_comm, Nat.add_mul_div_right _ _ (by omega), Nat.div_eq_of_lt h, Nat.add_mul_mod_self_right, Nat.mod_eq_of_lt h, Nat.zero_add]
      · subst h
        have e : s * d.N + d.N = (s + 1) * d.N := by rw [Nat.add_mul, Nat.one_mul]
        rw [e, Nat.mul_div_cancel _ (by omega), Nat.mul_mod_left, segTime_junction hN]
  have hcol : Collocates d.S d.N d.NX (fun x u => ode.f x u (part d.NP p 0)) T X (fun _ => part d.NU u 0) := by
    intro s hs i hi
    refine ⟨Q i, (hQ i hi).1, fun l hl => (hX s hs l hl i hi).symm, fun j hj => ?_⟩
    have ht := time_range (d := d) hS hN hT hs hj.le
    rw [hode _ ht.1 ht.2 i hi]
    beta_reduce
    rw [hf _ _ i hi, hf _ _ i hi]
    congr 1
    refine Finset.sum_congr rfl fun m hm => ?_
    rw [hX s hs j hj.le m (Finset.mem_range.1 hm)]
  obtain ⟨q', hq'⟩ : ∃ q', nlp d (scheme d.N) ode o T p (pack d X fun _ => part d.NU u 0) = some q' := by
    unfold nlp; rw [if_pos hb]; exact ⟨_, rfl⟩
  have hpart : part d.NU (part d.NU u 0) 0 = part d.NU u 0 := by
    funext i; unfold part
    by_cases hi : i < d.NU
    · simp [hi]
    · rw [if_neg hi, if_neg hi]
  have hrow := pack_rows hS hN hT ho hf (fun _ => hpart) hcol hq'
  have heq := (hex T hTE).2 _ _ _ _ hq hq' hr hrow (by
    rw [hx0, xAt_pack _ _ (by unfold Dims.NN; omega)]
    funext i; unfold part
    by_cases hi : i < d.NX
    · rw [if_pos hi, if_pos hi]
      show _ = ite _ _ _
      rw [if_pos rfl]
    · rw [if_neg hi, if_neg hi]) (fun k hk => by
    rw [hua k hk, uAt_pack, hpart]
    funext i
    unfold part
    by_cases hi : i < d.NU
    · rw [if_pos hi, if_pos hi]
      beta_reduce
      rw [Nat.add_comm (k * d.NU), Nat.add_mul_mod_self_right, Nat.mod_eq_of_lt hi, Nat.zero_add]
    · rw [if_neg hi, if_neg hi])
  have hnode : ∀ s < d.S, ∀ l ≤ d.N, ∀ i < d.NX, (solver a).x ((s * d.N + l) * d.NX + i) = (Q i).eval (segTime d.S d.N 0 T s l) := by
    intro s hs l hl i hi
    rw [heq _ (xIdx_lt d (node_le hs hl) hi), ← hX s hs l hl i hi]
    have := congrFun (xAt_pack (d := d) X (fun _ => part d.NU u 0) (node_le hs hl)) i
    unfold xAt part at this
    rw [if_pos hi, if_pos hi, Nat.zero_add] at this
    exact this
  refine ⟨fun i hi => ?_, hnode⟩
  have := hnode 0 (by omega) 0 (Nat.zero_le _) i hi
  rw [Nat.zero_mul, Nat.zero_add, Nat.zero_mul, Nat.zero_add] at this
  have h0 : segTime d.S d.N 0 T 0 0 = T := by
    rw [segTime_eq, (points_ends hN).1]; push_cast; ring
  rw [h0] at this
  exact this

end

end PolyMPC.PsOde
