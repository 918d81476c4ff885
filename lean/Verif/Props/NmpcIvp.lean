import Mathlib.LinearAlgebra.Matrix.NonsingularInverse
import Mathlib.LinearAlgebra.Matrix.ToLinearEquiv
import Mathlib.Topology.Instances.Matrix
import Verif.Props.Nmpc

/-! # The tracking controller `nmpc`: the initial value problem has one solution

The rows of the program leave out the collocation conditions at the initial time. For dynamics that are affine in the state this makes the
trajectory a function of the initial state and the controls, on horizons that are not too long. -/

namespace PolyMPC.Nmpc
open Ocp CasCheb GenOcp Spec Polynomial

/-- A polynomial of degree at most `N` whose derivative vanishes at `N` of the nodes is constant. -/
theorem flat_const {N : ℕ} (hN : 1 ≤ N) {a : ℝ} (ha : a ≠ 0) (b : ℝ) {Q : ℝ[X]} (hQ : Q.natDegree ≤ N)
    (h : ∀ j < N, Q.derivative.eval (a * points N j + b) = 0) : ∀ x y, Q.eval x = Q.eval y := by
  have hd : Q.derivative = 0 := by
    by_contra hne
    have hinj : Function.Injective fun l : Fin N => a * points N l + b := by
      intro p q h
      have h1 : points N p = points N q := mul_left_cancel₀ ha (add_right_cancel h)
      have h2 : (⟨p, by omega⟩ : Fin (N + 1)) = ⟨q, by omega⟩ := Cheb.nodes_injective h1
      exact Fin.ext (Fin.mk.inj h2)
    refine hne (eq_zero_of_natDegree_lt_card_of_eval_eq_zero _ hinj (fun l => h l l.2) ?_)
    rw [Fintype.card_fin]
    have := natDegree_derivative_le Q
    omega
  intro x y
  rw [eq_C_of_derivative_eq_zero hd, eval_C, eval_C]

section
variable (d : Dims)

/-- Number of unknown state entries: all nodes but the initial time. -/
def nFree : ℕ := d.S * d.N * d.NX

theorem varx_split : d.VARX = nFree d + d.NX := by
  unfold Dims.VARX Dims.NN nFree
  rw [Nat.mul_add, Nat.mul_one, Nat.mul_comm]

/-- Differentiation and state matrix on the unknown entries. -/
noncomputable def M0 : Matrix (Fin (nFree d)) (Fin (nFree d)) ℝ := Matrix.of fun r c => compDiff (scheme d.N) d.S d.N d.NX r c
def MA (A : ℕ → ℕ → ℝ) : Matrix (Fin (nFree d)) (Fin (nFree d)) ℝ :=
  Matrix.of fun r c => if r.val / d.NX = c.val / d.NX then A (r % d.NX) (c % d.NX) else 0

theorem nFree_split {r : ℕ} (hr : r < nFree d) : 0 < d.NX ∧ r / d.NX < d.S * d.N ∧ r % d.NX < d.NX := by
  have hx : 0 < d.NX := by
    rcases Nat.eq_zero_or_pos d.NX with h | h
    · unfold nFree at hr; rw [h] at hr; omega
    · exact h
  exact ⟨hx, (Nat.div_lt_iff_lt_mul hx).2 hr, Nat.mod_lt _ hx⟩

theorem MA_mulVec (A : ℕ → ℕ → ℝ) (X : ℕ → ℝ) (r : Fin (nFree d)) :
    (MA d A).mulVec (fun c => X c) r = ∑ j ∈ Finset.range d.NX, A (r % d.NX) j * X (r / d.NX * d.NX + j) := by
  obtain ⟨hx, hk, -⟩ := nFree_split d r.2
  unfold Matrix.mulVec dotProduct MA
  simp only [Matrix.of_apply]
  rw [Fin.sum_univ_eq_sum_range (fun c => (if r.val / d.NX = c / d.NX then A (r % d.NX) (c % d.NX) else 0) * X c) (nFree d)]
  unfold nFree
  rw [sum_blocks' d.NX (d.S * d.N), Finset.sum_eq_single (r.val / d.NX)]
  · refine Finset.sum_congr rfl fun a ha => ?_
    have ha := Finset.mem_range.1 ha
    have e1 : (r.val / d.NX * d.NX + a) / d.NX = r.val / d.NX := by
      rw [Nat.add_comm, Nat.add_mul_div_right _ _ hx, Nat.div_eq_of_lt ha, Nat.zero_add]
    have e2 : (r.val / d.NX * d.NX + a) % d.NX = a := by
      rw [Nat.add_comm, Nat.add_mul_mod_self_right, Nat.mod_eq_of_lt ha]
    rw [e1, e2, if_pos rfl]
  · intro k _ hne
    refine Finset.sum_eq_zero fun a ha => ?_
    have ha := Finset.mem_range.1 ha
    have e1 : (k * d.NX + a) / d.NX = k := by
      rw [Nat.add_comm, Nat.add_mul_div_right _ _ hx, Nat.div_eq_of_lt ha, Nat.zero_add]
    rw [e1, if_neg hne.symm, zero_mul]
  · intro h; exact absurd (Finset.mem_range.2 hk) h

/-- A row of the program for dynamics that are affine in the state. -/
theorem row_affine {f : (Fin d.M → ℝ) → ℕ → ℝ} {A : ℕ → ℕ → ℝ} {b : ℕ → ℕ → ℝ} (X U P : ℕ → ℝ) (t0 tf : ℝ)
    (hf : ∀ k < d.NN, ∀ i < d.NX, f (nodeXU d X U P k) i = ∑ j ∈ Finset.range d.NX, A i j * X (k * d.NX + j) + b k i) (r : Fin (nFree d)) :
    collocateDynamics d (scheme d.N) f t0 tf X U P r
      = (M0 d - CasCheb.tScale d t0 tf • MA d A).mulVec (fun c => X c) r
        + (∑ i ∈ Finset.range d.NX, compDiff (scheme d.N) d.S d.N d.NX r (nFree d + i) * X (nFree d + i)
          - CasCheb.tScale d t0 tf * b (r / d.NX) (r % d.NX)) := by
  obtain ⟨hx, hk, hi⟩ := nFree_split d r.2
  have hk' : r.val / d.NX < d.NN := by unfold Dims.NN; omega
  have e : r.val = r.val / d.NX * d.NX + r.val % d.NX := (Nat.div_add_mod' _ _).symm
  unfold collocateDynamics
  have h1 : rhs d f t0 tf X U P r = CasCheb.tScale d t0 tf * (∑ j ∈ Finset.range d.NX, A (r % d.NX) j * X (r / d.NX * d.NX + j) + b (r / d.NX) (r % d.NX)) := by
    conv_lhs => rw [e]
    rw [rhs_closed d f t0 tf X U P hk' hi, hf _ hk' _ hi]
  rw [h1]
  unfold mulVec
  rw [varx_split, Finset.sum_range_add, Matrix.sub_mulVec, Matrix.smul_mulVec, Pi.sub_apply, Pi.smul_apply, smul_eq_mul, MA_mulVec]
  have h2 : (M0 d).mulVec (fun c => X c) r = ∑ c ∈ Finset.range (nFree d), compDiff (scheme d.N) d.S d.N d.NX r c * X c := by
    unfold Matrix.mulVec dotProduct M0
    simp only [Matrix.of_apply]
    exact Fin.sum_univ_eq_sum_range (fun c => compDiff (scheme d.N) d.S d.N d.NX r c * X c) (nFree d)
  rw [h2]
  ring

/-- Without dynamics a trajectory is determined by its initial state. -/
theorem M0_det (hS : 1 ≤ d.S) (hN : 1 ≤ d.N) : (M0 d).det ≠ 0 := by
  intro hdet
  obtain ⟨v, hv, hz⟩ := Matrix.exists_mulVec_eq_zero_iff.2 hdet
  let X : ℕ → ℝ := fun r => if h : r < nFree d then v ⟨r, h⟩ else 0
  have hX : (fun c : Fin (nFree d) => X c) = v := by funext c; exact dif_pos c.2
  have hlast : ∀ i, X (nFree d + i) = 0 := fun i => dif_neg (by omega)
  have hrow : ∀ r < d.VARX - d.NX, collocateDynamics d (scheme d.N) (fun _ _ => 0) 0 1 X (fun _ => 0) (fun _ => 0) r = 0 := by
    intro r hr
    rw [varx_split, Nat.add_sub_cancel] at hr
    have := row_affine d (f := fun _ _ => 0) (A := fun _ _ => 0) (b := fun _ _ => 0) X (fun _ => 0) (fun _ => 0) 0 1
      (fun k _ i _ => by simp) ⟨r, hr⟩
    rw [this, hX, Matrix.sub_mulVec, hz, Matrix.smul_mulVec]
    have hm : MA d (fun _ _ => 0) = 0 := by
      ext r c; unfold MA; simp
    rw [hm, Matrix.zero_mulVec]
    simp [hlast]
  have hp := (rows_iff d (fun _ _ => 0) X (fun _ => 0) (fun _ => 0) hS hN (zero_lt_one)).1 hrow
  have ha := scale_pos d hS (zero_lt_one (α := ℝ))
  have hseg : ∀ s < d.S, ∀ i < d.NX, ∀ l ≤ d.N, X ((s * d.N + l) * d.NX + i) = X ((s * d.N + d.N) * d.NX + i) := by
    intro s hs i hi l hl
    obtain ⟨Q, hQ, hv, hd⟩ := hp s hs i hi
    rw [← hv l hl, ← hv d.N le_rfl]
    exact flat_const hN ha.ne' _ hQ (fun j hj => by rw [← segTime_eq]; exact hd j hj) _ _
  have hback : ∀ q s, s + q + 1 = d.S → ∀ i < d.NX, X ((s * d.N + d.N) * d.NX + i) = 0 := by
    intro q
    induction q with
    | zero =>
      intro s hs i _
      have : (s * d.N + d.N) * d.NX + i = nFree d + i := by
        unfold nFree; rw [← hs, Nat.add_zero, Nat.add_mul s 1, Nat.one_mul]
      rw [this, hlast]
    | succ q ih =>
      intro s hs i hi
      have h1 := hseg (s + 1) (by omega) i hi 0 (Nat.zero_le _)
      have h2 := ih (s + 1) (by omega) i hi
      have e : s * d.N + d.N = (s + 1) * d.N + 0 := by rw [Nat.add_mul, Nat.one_mul]; omega
      rw [e, h1, h2]
  apply hv
  funext r
  rw [← hX]
  show X r.val = 0
  have hr : r.val < d.VARX - d.NX := by rw [varx_split, Nat.add_sub_cancel]; exact r.2
  obtain ⟨s, j, i, hs, hj, hi, e⟩ := row_split hN hr
  rw [e, hseg s hs i hi j hj.le]
  exact hback (d.S - 1 - s) s (by omega) i hi

/-- On short horizons the matrix of the rows is invertible. -/
theorem det_near (hS : 1 ≤ d.S) (hN : 1 ≤ d.N) (A : ℕ → ℕ → ℝ) :
    ∃ δ > 0, ∀ tf : ℝ, 0 < tf → tf < δ → (M0 d - CasCheb.tScale d 0 tf • MA d A).det ≠ 0 := by
  have hc : Continuous fun tf : ℝ => (M0 d - CasCheb.tScale d 0 tf • MA d A).det := by
    refine Continuous.matrix_det ?_
    unfold CasCheb.tScale
    fun_prop
  have h0 : (M0 d - CasCheb.tScale d (0 : ℝ) 0 • MA d A).det ≠ 0 := by
    have : CasCheb.tScale d (0 : ℝ) 0 = 0 := by unfold CasCheb.tScale; rw [sub_self, zero_div]
    rw [this, zero_smul, sub_zero]
    exact M0_det d hS hN
  have hev := hc.continuousAt.eventually_ne h0
  obtain ⟨δ, hδ, hb⟩ := Metric.eventually_nhds_iff.1 hev
  exact ⟨δ, hδ, fun tf h1 h2 => hb (by rw [Real.dist_eq, sub_zero, abs_of_pos h1]; exact h2)⟩
end

/-- **C139.** For dynamics that are affine in the state, on horizons that are not too long, every initial state and every choice of controls has
exactly one trajectory that satisfies the constraints of the program. -/
theorem ivp_well_posed {d : Dims} {sys : Sys ℝ} {o : Opts ℝ} (ref : ℕ → ℝ) (hS : 1 ≤ d.S) (hN : 1 ≤ d.N) (ho : o.scaling.getD false = false)
    (hy : sys.ny = d.NX ∨ sys.ny = 1) (A : ℕ → ℕ → ℝ) (b : (ℕ → ℝ) → ℕ → ℝ)
    (hf : ∀ x u, ∀ i < d.NX, sys.f x u i = ∑ j ∈ Finset.range d.NX, A i j * x j + b u i) :
    ∃ δ > 0, ∀ tf, 0 < tf → tf < δ →
      (∀ x0 u : ℕ → ℝ, ∃ var p, nlp d (scheme d.N) sys o ref tf var = some p ∧ (∀ r < p.n, p.g r = 0) ∧
        (∀ i < d.NX, xAt d var (d.S * d.N) i = x0 i) ∧ ∀ c < d.VARU, var (d.VARX + c) = u c) ∧
      ∀ var var' p p', nlp d (scheme d.N) sys o ref tf var = some p → nlp d (scheme d.N) sys o ref tf var' = some p' →
        (∀ r < p.n, p.g r = 0) → (∀ r < p'.n, p'.g r = 0) → (∀ i < d.NX, xAt d var (d.S * d.N) i = xAt d var' (d.S * d.N) i) →
        (∀ c < d.VARU, var (d.VARX + c) = var' (d.VARX + c)) → ∀ r < d.VARX, var r = var' r := by
  obtain ⟨δ, hδ, hdet⟩ := det_near d hS hN A
  refine ⟨δ, hδ, fun tf h1 h2 => ?_⟩
  have hne := hdet tf h1 h2
  have hu : IsUnit (M0 d - CasCheb.tScale d 0 tf • MA d A) := (Matrix.isUnit_iff_isUnit_det _).2 (isUnit_iff_ne_zero.2 hne)
  have hrow : ∀ var : ℕ → ℝ, ∀ r : Fin (nFree d),
      collocateDynamics d (scheme d.N) (ode d sys o) 0 tf var (fun i => var (d.VARX + i)) (fun _ => 0) r
      = (M0 d - CasCheb.tScale d 0 tf • MA d A).mulVec (fun c => var c) r
        + (∑ i ∈ Finset.range d.NX, compDiff (scheme d.N) d.S d.N d.NX r (nFree d + i) * var (nFree d + i)
          - CasCheb.tScale d 0 tf * b (uAt d var (r / d.NX)) (r % d.NX)) := by
    intro var r
    refine row_affine d (b := fun k => b (uAt d var k)) var _ _ 0 tf (fun k _ i hi => ?_) r
    rw [ode_off ho, hf _ _ i hi]
    congr 1
    refine Finset.sum_congr rfl fun j hj => ?_
    unfold xAt part
    rw [if_pos (Finset.mem_range.1 hj)]
  have hxl : ∀ (var : ℕ → ℝ), ∀ i < d.NX, xAt d var (d.S * d.N) i = var (nFree d + i) := fun var i hi => by
    unfold xAt part; rw [if_pos hi]; rfl
  have hn : d.VARX - d.NX = nFree d := by rw [varx_split, Nat.add_sub_cancel]
  constructor
  · intro x0 u
    let w : Fin (nFree d) → ℝ := fun r => -(∑ i ∈ Finset.range d.NX, compDiff (scheme d.N) d.S d.N d.NX r (nFree d + i) * x0 i
      - CasCheb.tScale d 0 tf * b (part d.NU u (r / d.NX * d.NU)) (r % d.NX))
    obtain ⟨v, hv⟩ := (Matrix.mulVec_surjective_iff_isUnit.2 hu) w
    let var : ℕ → ℝ := fun c => if h : c < nFree d then v ⟨c, h⟩ else if c < d.VARX then x0 (c - nFree d) else u (c - d.VARX)
    have hvv : (fun c : Fin (nFree d) => var c) = v := by funext c; exact dif_pos c.2
    have hvx : ∀ i < d.NX, var (nFree d + i) = x0 i := fun i hi => by
      show dite _ _ _ = _
      rw [dif_neg (by omega), if_pos (by rw [varx_split]; omega), Nat.add_sub_cancel_left]
    have hvu : ∀ c, var (d.VARX + c) = u c := fun c => by
      show dite _ _ _ = _
      rw [dif_neg (by rw [varx_split]; omega), if_neg (by omega), Nat.add_sub_cancel_left]
    have hua : ∀ k, uAt d var k = part d.NU u (k * d.NU) := fun k => by
      rw [← uAt_eq]
      funext i; unfold part
      simp only [hvu]
    obtain ⟨p, hp⟩ : ∃ p, nlp d (scheme d.N) sys o ref tf var = some p := by
      unfold nlp; rw [if_pos ((sizes_off ho).2 hy)]; exact ⟨_, rfl⟩
    refine ⟨var, p, hp, fun r hr => ?_, fun i hi => ?_, fun c _ => hvu c⟩
    · obtain ⟨-, e2, -, e4⟩ := nlp_ok hp
      rw [e2, hn] at hr
      have q := hrow var ⟨r, hr⟩
      rw [hvv, hv, hua] at q
      rw [e4]
      refine q.trans ?_
      have : ∑ i ∈ Finset.range d.NX, compDiff (scheme d.N) d.S d.N d.NX r (nFree d + i) * var (nFree d + i)
          = ∑ i ∈ Finset.range d.NX, compDiff (scheme d.N) d.S d.N d.NX r (nFree d + i) * x0 i :=
        Finset.sum_congr rfl fun i hi => by rw [hvx i (Finset.mem_range.1 hi)]
      rw [this]
      show -_ + _ = 0
      ring
    · rw [hxl var i hi, hvx i hi]
  · intro var var' p p' hp hp' hz hz' hx hc r hr
    obtain ⟨-, e2, -, e4⟩ := nlp_ok hp
    obtain ⟨-, e2', -, e4'⟩ := nlp_ok hp'
    have hx' : ∀ i < d.NX, var (nFree d + i) = var' (nFree d + i) := fun i hi => by rw [← hxl var i hi, ← hxl var' i hi, hx i hi]
    have hua : ∀ k < d.NN, uAt d var k = uAt d var' k := fun k hk => by
      rw [← uAt_eq, ← uAt_eq]
      funext i; unfold part
      by_cases hi : i < d.NU
      · rw [if_pos hi, if_pos hi]
        refine hc _ ?_
        unfold Dims.VARU
        rw [Nat.mul_comm d.NU]
        exact blk_le hi hk
      · rw [if_neg hi, if_neg hi]
    have hinj : (fun c : Fin (nFree d) => var c) = fun c : Fin (nFree d) => var' c := by
      refine Matrix.mulVec_injective_iff_isUnit.2 hu ?_
      funext r
      have q1 := hz r (by rw [e2, hn]; exact r.2)
      have q2 := hz' r (by rw [e2', hn]; exact r.2)
      rw [e4, hrow var r] at q1
      rw [e4', hrow var' r] at q2
      have hk : r.val / d.NX < d.NN := by have := (nFree_split d r.2).2.1; unfold Dims.NN; omega
      rw [hua _ hk, Finset.sum_congr rfl fun i hi => by rw [hx' i (Finset.mem_range.1 hi)]] at q1
      show (M0 d - CasCheb.tScale d 0 tf • MA d A).mulVec (fun c => var c) r = (M0 d - CasCheb.tScale d 0 tf • MA d A).mulVec (fun c => var' c) r
      linarith
    rw [varx_split] at hr
    by_cases h : r < nFree d
    · exact congrFun hinj ⟨r, h⟩
    · obtain ⟨i, rfl⟩ := Nat.exists_eq_add_of_le (not_lt.1 h)
      exact hx' i (by omega)

/-- An unstable system without input: with the default number of segments and degree it can be started from `1`; with the rows that are cut off it can
be started from `0` only. -/
example : ∃ tf > 0, (∃ var p, nlp ⟨1, 1, 0, 0, 2, 5⟩ (scheme 5) ⟨1, fun x _ => x, fun x => x⟩ {} (fun _ => 0) tf var = some p ∧
      (∀ r < p.n, p.g r = 0) ∧ xAt ⟨1, 1, 0, 0, 2, 5⟩ var 10 0 = 1) ∧
    ∀ X U : ℕ → ℝ, (∀ r < 11, collocateDynamics ⟨1, 1, 0, 0, 2, 5⟩ (scheme 5) (fun z => zx ⟨1, 1, 0, 0, 2, 5⟩ z) 0 tf X U (fun _ => 0) r = 0) →
      X 10 = 0 := by
  obtain ⟨δ, hδ, h⟩ := ivp_well_posed (d := ⟨1, 1, 0, 0, 2, 5⟩) (sys := ⟨1, fun x _ => x, fun x => x⟩) (o := {}) (fun _ => 0) (by norm_num) (by norm_num) rfl
    (Or.inl rfl) (fun _ _ => 1) (fun _ _ => 0) (fun x u i hi => by
      have : i = 0 := by have : i < 1 := hi; omega
      subst this; simp)
  have hp : 0 < δ / 2 := by positivity
  refine ⟨δ / 2, hp, ?_, fun X U hz => ?_⟩
  · obtain ⟨var, p, h1, h2, h3, -⟩ := (h (δ / 2) hp (by linarith)).1 (fun _ => 1) fun _ => 0
    exact ⟨var, p, h1, h2, h3 0 (by norm_num)⟩
  · have := cas_modes ⟨1, 1, 0, 0, 2, 5⟩ (fun z => zx ⟨1, 1, 0, 0, 2, 5⟩ z) X U (fun _ => 0) (by norm_num) (by norm_num) hp (m := 1) 1 (by simp) (fun _ _ => 1)
      (fun z c => by
        rw [Fintype.sum_unique, Matrix.one_apply, if_pos (Subsingleton.elim _ _)]
        simp [zx, Dims.M]) hz 0 5 le_rfl
    simpa using this

end PolyMPC.Nmpc
