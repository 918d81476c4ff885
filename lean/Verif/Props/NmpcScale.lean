import Verif.Props.Nmpc

/-! # The tracking controller `nmpc`: scaling -/

namespace PolyMPC.Nmpc
open Ocp CasCheb GenOcp Spec Polynomial

set_option linter.unusedSectionVars false

section Field
variable {K : Type} [Field K] [LinearOrder K] [IsStrictOrderedRing K]

theorem xAt_lin (d : Dims) (S V : ℕ → ℕ → K) (v : ℕ → K) {k : ℕ} (hk : k < d.NN) :
    xAt d (linPoint d.NX d.NU d.NN S V v) k = lin d.NX S (xAt d v k) := by
  funext i
  unfold xAt
  by_cases hi : i < d.NX
  · have hx : 0 < d.NX := by omega
    have e1 : (k * d.NX + i) / d.NX = k := by rw [Nat.add_comm, Nat.add_mul_div_right _ _ hx, Nat.div_eq_of_lt hi, Nat.zero_add]
    have e2 : (k * d.NX + i) % d.NX = i := by rw [Nat.add_comm, Nat.add_mul_mod_self_right, Nat.mod_eq_of_lt hi]
    have h1 : k * d.NX + i < d.NX * d.NN := by rw [Nat.mul_comm d.NX d.NN]; exact blk_le hi hk
    show (if i < d.NX then linPoint _ _ _ _ _ _ _ else 0) = _
    rw [if_pos hi]
    unfold linPoint
    rw [if_pos h1, e1, e2]
  · unfold part lin; rw [if_neg hi, if_neg hi]

theorem uAt_lin (d : Dims) (S V : ℕ → ℕ → K) (v : ℕ → K) {k : ℕ} (_hk : k < d.NN) :
    uAt d (linPoint d.NX d.NU d.NN S V v) k = lin d.NU V (uAt d v k) := by
  funext i
  unfold uAt
  by_cases hi : i < d.NU
  · have hx : 0 < d.NU := by omega
    have e0 : d.NN * d.NX + k * d.NU + i - d.NX * d.NN = k * d.NU + i := by rw [Nat.mul_comm]; omega
    have e1 : (k * d.NU + i) / d.NU = k := by rw [Nat.add_comm, Nat.add_mul_div_right _ _ hx, Nat.div_eq_of_lt hi, Nat.zero_add]
    have e2 : (k * d.NU + i) % d.NU = i := by rw [Nat.add_comm, Nat.add_mul_mod_self_right, Nat.mod_eq_of_lt hi]
    have h1 : ¬ d.NN * d.NX + k * d.NU + i < d.NX * d.NN := by rw [Nat.mul_comm]; omega
    show (if i < d.NU then linPoint _ _ _ _ _ _ _ else 0) = _
    rw [if_pos hi]
    unfold linPoint
    rw [if_neg h1, e0, e1, e2, Nat.mul_comm d.NX d.NN]
  · unfold part lin; rw [if_neg hi, if_neg hi]

theorem part_part (n : ℕ) (v : ℕ → K) (a : ℕ) : part n (part n v a) 0 = part n v a := by
  rw [← cut_part, part_idem]

/-- A controller with given scaling matrices and their inverses. -/
structure Scaled (d : Dims) (o : Opts K) (S T V W : Mat K) : Prop where
  on : o.scaling = some true
  x : o.scaleX = some (S, T)
  u : o.scaleU = some (V, W)
  nS : S.n = d.NX
  nT : T.n = d.NX
  nV : V.n = d.NU
  nW : W.n = d.NU
  invX : IsInv d.NX S.a T.a
  invU : IsInv d.NU V.a W.a

variable {d : Dims} {o : Opts K} {S T V W : Mat K} (sc : Scaled d o S T V W) (sys : Sys K)
include sc

theorem Scaled.scale : o.scale = true := by unfold Opts.scale; rw [sc.on]; rfl
theorem Scaled.SX : initSX sys o = (S, T) := by unfold initSX; rw [sc.scale, sc.x]; rfl
theorem Scaled.SU : initSU d o = (V, W) := by unfold initSU; rw [sc.scale, sc.u]; rfl

theorem Scaled.sizes : sizesOk d sys o = true := by
  unfold sizesOk
  rw [sc.SX sys, sc.SU, sc.scale, fits_of sc.nS, fits_of sc.nT, fits_of sc.nV, fits_of sc.nW]
  simp [sc.nT]

theorem Scaled.backX (x : ℕ → K) (a : ℕ) : T.app d.NX (lin d.NX S.a (part d.NX x a)) = part d.NX x a := by
  rw [app_lin sc.nT, lin_inv sc.invX.1, part_part]

theorem Scaled.backU (u : ℕ → K) (a : ℕ) : W.app d.NU (lin d.NU V.a (part d.NU u a)) = part d.NU u a := by
  rw [app_lin sc.nW, lin_inv sc.invU.1, part_part]

theorem Scaled.ode_at (var : ℕ → K) {k : ℕ} (hk : k < d.NN) :
    ode d sys o (nodeXU d (linPoint d.NX d.NU d.NN S.a V.a var) (fun i => linPoint d.NX d.NU d.NN S.a V.a var (d.VARX + i)) (fun _ => 0) k)
      = lin d.NX S.a (sys.f (xAt d var k) (uAt d var k)) := by
  unfold ode
  rw [sc.scale, sc.SX sys, sc.SU, zx_node, zu_node, uAt_eq, uAt_lin d _ _ _ hk]
  rw [show part d.NX (linPoint d.NX d.NU d.NN S.a V.a var) (k * d.NX) = lin d.NX S.a (xAt d var k) from xAt_lin d _ _ _ hk]
  show S.app d.NX (sys.f (T.app d.NX _) (W.app d.NU _)) = _
  unfold xAt uAt
  rw [sc.backX, sc.backU, app_lin sc.nS]

theorem Scaled.residual_at (ref var : ℕ → K) {k : ℕ} (hk : k < d.NN) :
    residual d sys o ref (xAt d (linPoint d.NX d.NU d.NN S.a V.a var) k) = fun i => ref i - sys.out (xAt d var k) i := by
  unfold residual
  rw [sc.scale, sc.SX sys, xAt_lin d _ _ _ hk]
  show (fun i => ref i - sys.out (T.app d.NX _) i) = _
  unfold xAt
  rw [sc.backX]

/-- The rows of the scaled program are the scaled rows. -/
theorem Scaled.row (A : Approx K) (tf : K) (var : ℕ → K) {s j : ℕ} (hs : s < d.S) (hj : j ≤ d.N) (hjs : j < d.N ∨ s + 1 = d.S) {i : ℕ} (hi : i < d.NX) :
    collocateDynamics d A (ode d sys o) 0 tf (linPoint d.NX d.NU d.NN S.a V.a var) (fun i => linPoint d.NX d.NU d.NN S.a V.a var (d.VARX + i))
        (fun _ => 0) ((s * d.N + j) * d.NX + i)
      = lin d.NX S.a (fun q => collocateDynamics d A (fun z => sys.f (zx d z) (zu d z)) 0 tf var (fun i => var (d.VARX + i)) (fun _ => 0)
          ((s * d.N + j) * d.NX + q)) i := by
  rw [dynamics_closed d A _ 0 tf _ _ _ hs hj hjs hi, sc.ode_at sys var (node_lt d hs hj)]
  have hx : ∀ l ∈ Finset.range (d.N + 1), A.D j l * linPoint d.NX d.NU d.NN S.a V.a var ((s * d.N + l) * d.NX + i)
      = ∑ q ∈ Finset.range d.NX, A.D j l * (S.a i q * var ((s * d.N + l) * d.NX + q)) := fun l hl => by
    have hl := Finset.mem_range.1 hl
    have e := congrFun (xAt_lin d S.a V.a var (node_lt d hs (show l ≤ d.N by omega))) i
    unfold xAt at e
    rw [show part d.NX (linPoint d.NX d.NU d.NN S.a V.a var) ((s * d.N + l) * d.NX) i = linPoint d.NX d.NU d.NN S.a V.a var ((s * d.N + l) * d.NX + i) from
      if_pos hi] at e
    rw [e, lin, if_pos hi, Finset.mul_sum]
    refine Finset.sum_congr rfl fun q hq => ?_
    unfold part; rw [if_pos (Finset.mem_range.1 hq)]
  rw [Finset.sum_congr rfl hx, Finset.sum_comm]
  unfold lin
  rw [if_pos hi, if_pos hi, Finset.mul_sum, ← Finset.sum_sub_distrib]
  refine Finset.sum_congr rfl fun q hq => ?_
  beta_reduce
  rw [dynamics_closed d A _ 0 tf _ _ _ hs hj hjs (Finset.mem_range.1 hq), zx_node, zu_node, uAt_eq]
  rw [mul_sub, Finset.mul_sum]
  congr 1
  · exact Finset.sum_congr rfl fun l _ => by ring
  · unfold xAt; ring

/-- A vector is zero if its image under an invertible matrix is. -/
theorem Scaled.lin_zero (v : ℕ → K) : (∀ i < d.NX, lin d.NX S.a v i = 0) ↔ ∀ i < d.NX, v i = 0 := by
  constructor
  · intro h i hi
    have e := congrFun (lin_inv sc.invX.1 v) i
    rw [lin_congr T.a (w := fun _ => 0) h] at e
    unfold part lin at e
    rw [if_pos hi, if_pos hi, Nat.zero_add] at e
    rw [← e]
    simp
  · intro h i hi
    unfold lin
    rw [if_pos hi]
    exact Finset.sum_eq_zero fun j hj => by rw [h j (Finset.mem_range.1 hj), mul_zero]

omit sc in
theorem linPoint_x {NX NU NN : ℕ} (S V : ℕ → ℕ → K) (v : ℕ → K) {k i : ℕ} (hk : k < NN) (hi : i < NX) :
    linPoint NX NU NN S V v (k * NX + i) = lin NX S (part NX v (k * NX)) i := by
  have h := congrFun (xAt_lin ⟨NX, NU, 0, 0, 1, NN - 1⟩ S V v (k := k) (by show k < 1 * (NN - 1) + 1; omega)) i
  have e : (⟨NX, NU, 0, 0, 1, NN - 1⟩ : Dims).NN = NN := by show 1 * (NN - 1) + 1 = NN; omega
  rw [e] at h
  exact (if_pos hi).symm.trans h

omit sc in
theorem linPoint_u {NX NU NN : ℕ} (S V : ℕ → ℕ → K) (v : ℕ → K) {k i : ℕ} (hk : k < NN) (hi : i < NU) :
    linPoint NX NU NN S V v (NN * NX + k * NU + i) = lin NU V (part NU v (NN * NX + k * NU)) i := by
  have h := congrFun (uAt_lin ⟨NX, NU, 0, 0, 1, NN - 1⟩ S V v (k := k) (by show k < 1 * (NN - 1) + 1; omega)) i
  have e : (⟨NX, NU, 0, 0, 1, NN - 1⟩ : Dims).NN = NN := by show 1 * (NN - 1) + 1 = NN; omega
  unfold uAt at h
  rw [e] at h
  exact (if_pos hi).symm.trans h

/-- **C140.** Every point is a scaled point. -/
theorem Scaled.every_point (v : ℕ → K) {r : ℕ} (hr : r < d.VARX + d.VARU) :
    linPoint d.NX d.NU d.NN S.a V.a (linPoint d.NX d.NU d.NN T.a W.a v) r = v r := by
  by_cases h : r < d.VARX
  · obtain ⟨k, i, hk, hi, rfl⟩ := blk_split h
    rw [linPoint_x _ _ _ hk hi]
    have := xAt_lin d T.a W.a v hk
    unfold xAt at this
    rw [this, lin_inv sc.invX.2, part_part]
    exact if_pos hi
  · obtain ⟨q, rfl⟩ := Nat.exists_eq_add_of_le (not_lt.1 h)
    have hq : q < d.NU * d.NN := by unfold Dims.VARU at hr; omega
    obtain ⟨k, i, hk, hi, rfl⟩ := blk_split hq
    have e : d.VARX + (k * d.NU + i) = d.NN * d.NX + k * d.NU + i := by unfold Dims.VARX; rw [Nat.mul_comm]; omega
    rw [e, linPoint_u _ _ _ hk hi]
    have := uAt_lin d T.a W.a v hk
    unfold uAt at this
    rw [this, lin_inv sc.invU.2, part_part]
    exact if_pos hi

omit sc in
/-- **C140 (negative).** A uniform control scaling by `c` multiplies the control weight by `c ^ 2`. -/
theorem control_weight_scaled (n : ℕ) (R : ℕ → ℕ → K) (c : K) (u : ℕ → K) :
    wsum n R (lin n (fun i j => if i = j then c else 0) u) = c ^ 2 * wsum n R u := by
  unfold wsum
  rw [Finset.mul_sum]
  refine Finset.sum_congr rfl fun i _ => ?_
  rw [Finset.mul_sum]
  refine Finset.sum_congr rfl fun j hj => ?_
  have : lin n (fun i j => if i = j then c else 0) u j = c * u j := by
    unfold lin
    rw [if_pos (Finset.mem_range.1 hj), Finset.sum_eq_single j]
    · beta_reduce; rw [if_pos rfl]
    · intro k _ hk; beta_reduce; rw [if_neg hk.symm, zero_mul]
    · intro h; exact absurd hj h
  rw [this]; ring

end Field

/-- **C140.** The program of a scaled controller at a point with scaled states `S x` and scaled controls `V u`, for any invertible matrices. The
constraints are those of the unscaled problem, and so is the tracking cost; but the control weight is applied to the scaled controls. -/
theorem scaled_meaning {d : Dims} {sys : Sys ℝ} {o : Opts ℝ} {S T V W : Mat ℝ} (sc : Scaled d o S T V W) (ref : ℕ → ℝ) {tf : ℝ} (hS : 1 ≤ d.S)
    (hN : 1 ≤ d.N) (h : 0 < tf) (var : ℕ → ℝ) :
    ∃ p, nlp d (scheme d.N) sys o ref tf (linPoint d.NX d.NU d.NN S.a V.a var) = some p ∧
    p.f = wsum sys.ny (weight o.P) (fun i => ref i - sys.out (xAt d var 0) i)
      + ∑ s ∈ Finset.range d.S, tf / (2 * d.S) * ∑ m ∈ Finset.range (d.N + 1), (scheme d.N).w m *
          (wsum sys.ny (weight o.Q) (fun i => ref i - sys.out (xAt d var (s * d.N + m)) i)
            + wsum d.NU (weight o.R) (lin d.NU V.a (uAt d var (s * d.N + m)))) ∧
    ((∀ r < p.n, p.g r = 0) ↔ ∀ s < d.S, ∀ i < d.NX, ∃ Q : ℝ[X], Q.natDegree ≤ d.N ∧
      (∀ l ≤ d.N, Q.eval (segTime d.S d.N 0 tf s l) = xAt d var (s * d.N + l) i) ∧
      ∀ j < d.N, Q.derivative.eval (segTime d.S d.N 0 tf s j) = sys.f (xAt d var (s * d.N + j)) (uAt d var (s * d.N + j)) i) := by
  obtain ⟨p, hp⟩ : ∃ p, nlp d (scheme d.N) sys o ref tf (linPoint d.NX d.NU d.NN S.a V.a var) = some p := by
    unfold nlp; rw [if_pos (sc.sizes sys)]; exact ⟨_, rfl⟩
  obtain ⟨-, h2, h3, h4⟩ := nlp_ok hp
  refine ⟨p, hp, ?_, ?_⟩
  · rw [h3]
    unfold collocateCost
    simp only []
    rw [lagrange_closed]
    refine congrArg₂ (· + ·) ?_ (Finset.sum_congr rfl fun s hs => ?_)
    · unfold mayer
      have e : cut d.NX (linPoint d.NX d.NU d.NN S.a V.a var) = xAt d (linPoint d.NX d.NU d.NN S.a V.a var) 0 := by
        unfold xAt; rw [cut_part, Nat.zero_mul]
      rw [e, sc.residual_at sys ref var (zero_lt_NN d)]
    · have e : CasCheb.tScale d 0 tf = tf / (2 * d.S) := by unfold CasCheb.tScale; push_cast; rw [sub_zero]
      rw [e]
      congr 1
      refine Finset.sum_congr rfl fun m hm => ?_
      have hk := node_lt d (Finset.mem_range.1 hs) (show m ≤ d.N by have := Finset.mem_range.1 hm; omega)
      congr 1
      unfold lagrange
      rw [zx_node, zu_node, uAt_eq, uAt_lin d _ _ _ hk]
      have := sc.residual_at sys ref var hk
      unfold xAt at this
      rw [this]
      rfl
  · have hrows : (∀ r < p.n, p.g r = 0) ↔ ∀ r < d.VARX - d.NX,
        collocateDynamics d (scheme d.N) (fun z => sys.f (zx d z) (zu d z)) 0 tf var (fun i => var (d.VARX + i)) (fun _ => 0) r = 0 := by
      rw [h2, h4]
      constructor
      · intro hz r hr
        obtain ⟨s, j, i, hs, hj, hi, rfl⟩ := row_split hN hr
        refine (sc.lin_zero fun q => collocateDynamics d (scheme d.N) (fun z => sys.f (zx d z) (zu d z)) 0 tf var (fun i => var (d.VARX + i)) (fun _ => 0)
          ((s * d.N + j) * d.NX + q)).1 (fun q hq => ?_) i hi
        rw [← sc.row sys (scheme d.N) tf var hs hj.le (Or.inl hj) hq]
        exact hz _ (row_lt hs hj hq)
      · intro hz r hr
        obtain ⟨s, j, i, hs, hj, hi, rfl⟩ := row_split hN hr
        rw [sc.row sys (scheme d.N) tf var hs hj.le (Or.inl hj) hi]
        exact (sc.lin_zero _).2 (fun q hq => hz _ (row_lt hs hj hq)) i hi
    rw [hrows, rows_iff d _ _ _ _ hS hN h]
    refine forall₂_congr fun s hs => forall₂_congr fun i hi => exists_congr fun Q => and_congr_right fun _ => and_congr ?_ ?_
    · refine forall₂_congr fun l _ => ?_
      unfold xAt part
      rw [if_pos hi]
    · refine forall₂_congr fun j _ => ?_
      rw [zx_node, zu_node, uAt_eq]
      rfl

/-- Two states scaled with a shear, one control scaled by `3`. -/
def exShear : Opts ℚ where
  scaling := some true
  scaleX := some (⟨2, fun i j => if i ≤ j then 1 else 0⟩, ⟨2, fun i j => if i = j then 1 else if i ≤ j then -1 else 0⟩)
  scaleU := some (⟨1, fun _ _ => 3⟩, ⟨1, fun _ _ => 1 / 3⟩)

example : Scaled ⟨2, 1, 0, 0, 2, 5⟩ exShear ⟨2, fun i j => if i ≤ j then 1 else 0⟩ ⟨2, fun i j => if i = j then 1 else if i ≤ j then -1 else 0⟩
    ⟨1, fun _ _ => 3⟩ ⟨1, fun _ _ => 1 / 3⟩ :=
  ⟨rfl, rfl, rfl, rfl, rfl, rfl, rfl, by unfold IsInv; decide +kernel, by unfold IsInv; decide +kernel⟩

/-- A control of `1` that is scaled by `3` costs `9`. -/
example : wsum 1 (fun _ _ => (1 : ℚ)) (lin 1 (fun _ _ => 3) fun _ => 1) = 9 ∧ wsum 1 (fun _ _ => (1 : ℚ)) (fun _ => 1) = 1 := by decide +kernel

end PolyMPC.Nmpc
