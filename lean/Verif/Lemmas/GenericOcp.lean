import Verif.Model.GenericOcp
import Verif.Lemmas.CasCheb

/-! # Lemmas on `GenericOCP`: scaled points -/

namespace PolyMPC.GenOcp
open Ocp CasCheb

set_option linter.unusedSectionVars false
set_option linter.unusedVariables false

variable {K : Type} [Field K]

theorem loop_ext {σ : Type*} {f g : ℕ → σ → σ} {n : ℕ} (s : σ) (h : ∀ k < n, ∀ s, f k s = g k s) : loop n f s = loop n g s := by
  induction n with
  | zero => rfl
  | succ n ih => rw [loop_succ, loop_succ, ih fun k hk => h k (Nat.lt_succ_of_lt hk), h n (Nat.lt_succ_self n)]

/-- No scaling. -/
def one : Scale K := ⟨fun _ => 1, fun _ => 1, fun _ => 1⟩

/-- Factor of entry `i` of a stacked vector `(x, u, p)`. -/
def fac (d : Dims) (sc : Scale K) (i : ℕ) : K :=
  if i < d.NX then sc.x i else if i < d.NX + d.NU then sc.u (i - d.NX) else sc.p (i - d.NX - d.NU)

/-- Nonzero factors. -/
structure Nz (d : Dims) (sc : Scale K) : Prop where
  x : ∀ i < d.NX, sc.x i ≠ 0
  u : ∀ i < d.NU, sc.u i ≠ 0
  p : ∀ i < d.NP, sc.p i ≠ 0

/-- The second point is the scaled first one. -/
structure Rel (d : Dims) (sc : Scale K) (nx nu : ℕ) (X U P X' U' P' : ℕ → K) : Prop where
  x : ∀ k < nx, ∀ i < d.NX, X' (k * d.NX + i) = sc.x i * X (k * d.NX + i)
  u : ∀ k < nu, ∀ i < d.NU, U' (k * d.NU + i) = sc.u i * U (k * d.NU + i)
  p : ∀ i < d.NP, P' i = sc.p i * P i

def ZRel (d : Dims) (sc : Scale K) (z z' : Fin d.M → K) : Prop := ∀ i, z' i = fac d sc i * z i

section Z
variable {d : Dims} {sc : Scale K} {z z' : Fin d.M → K}

theorem zx_rel (hn : Nz d sc) (h : ZRel d sc z z') : unscale sc.x (zx d z') = unscale one.x (zx d z) := by
  funext i
  unfold unscale zx
  by_cases hi : i < d.NX
  · rw [dif_pos hi, dif_pos hi, h, fac, if_pos hi]
    show _ = (1 : K)⁻¹ * _
    rw [inv_one, one_mul, inv_mul_cancel_left₀ (hn.x i hi)]
  · rw [dif_neg hi, dif_neg hi, mul_zero, mul_zero]

theorem zu_rel (hn : Nz d sc) (h : ZRel d sc z z') : unscale sc.u (zu d z') = unscale one.u (zu d z) := by
  funext i
  unfold unscale zu
  by_cases hi : i < d.NU
  · rw [dif_pos hi, dif_pos hi, h, fac]
    show (sc.u i)⁻¹ * ((if d.NX + i < d.NX then _ else if d.NX + i < d.NX + d.NU then _ else _) * _) = (1 : K)⁻¹ * _
    rw [if_neg (by omega), if_pos (by omega), Nat.add_sub_cancel_left, inv_one, one_mul, inv_mul_cancel_left₀ (hn.u i hi)]
  · rw [dif_neg hi, dif_neg hi, mul_zero, mul_zero]

theorem zp_rel' (h : ZRel d sc z z') (i : ℕ) : zp d z' i = sc.p i * zp d z i := by
  unfold zp
  by_cases hi : i < d.NP
  · rw [dif_pos hi, dif_pos hi, h, fac]
    show (if d.NX + d.NU + i < d.NX then _ else if d.NX + d.NU + i < d.NX + d.NU then _ else _) * _ = _
    rw [if_neg (by omega), if_neg (by omega), show d.NX + d.NU + i - d.NX - d.NU = i by omega]
  · rw [dif_neg hi, dif_neg hi, mul_zero]

theorem zp_rel (hn : Nz d sc) (h : ZRel d sc z z') : unscale sc.p (zp d z') = unscale one.p (zp d z) := by
  funext i
  unfold unscale
  rw [zp_rel' h]
  by_cases hi : i < d.NP
  · show _ = (1 : K)⁻¹ * _
    rw [inv_one, one_mul, inv_mul_cancel_left₀ (hn.p i hi)]
  · unfold zp; rw [dif_neg hi, mul_zero, mul_zero, mul_zero]

theorem expr_rel (hn : Nz d sc) (h : ZRel d sc z z') (D : ℕ → K) (e : Expr K) : (exprFn d sc D e).val z' = (exprFn d one D e).val z := by
  show e.val _ _ _ D = e.val _ _ _ D
  rw [zx_rel hn h, zu_rel hn h, zp_rel hn h]

theorem lag_rel (hn : Nz d sc) (h : ZRel d sc z z') (D : ℕ → K) (usr : User K) : lagFn d sc usr D z' = lagFn d one usr D z := by
  show usr.lag _ _ _ D = usr.lag _ _ _ D
  rw [zx_rel hn h, zu_rel hn h, zp_rel hn h]

/-- The problem whose dynamics see the parameters multiplied by `s`. -/
def User.paramScaled (s : ℕ → K) (usr : User K) : User K :=
  { usr with dyn := fun x u p D => usr.dyn x u (fun i => s i * p i) D }

theorem dyn_rel (hn : Nz d sc) (h : ZRel d sc z z') (D : ℕ → K) (usr : User K) (i : ℕ) :
    dynFn d sc usr D z' i = sc.x i * dynFn d one (usr.paramScaled sc.p) D z i := by
  show sc.x i * usr.dyn _ _ _ D i = sc.x i * (1 * usr.dyn _ _ _ D i)
  rw [zx_rel hn h, zu_rel hn h, one_mul, funext (zp_rel' h)]

end Z

theorem mayer_rel {d : Dims} {sc : Scale K} {nx nu : ℕ} {X U P X' U' P' : ℕ → K} (hn : Nz d sc) (h : Rel d sc nx nu X U P X' U' P')
    (hx : 0 < nx) (D : ℕ → K) (usr : User K) : mayerFn d sc usr D X' P' = mayerFn d one usr D X P := by
  have e1 : unscale sc.x (cut d.NX X') = unscale one.x (cut d.NX X) := by
    funext i
    unfold unscale cut
    by_cases hi : i < d.NX
    · have := h.x 0 hx i hi
      rw [Nat.zero_mul, Nat.zero_add] at this
      rw [if_pos hi, if_pos hi, this]
      show _ = (1 : K)⁻¹ * _
      rw [inv_one, one_mul, inv_mul_cancel_left₀ (hn.x i hi)]
    · rw [if_neg hi, if_neg hi, mul_zero, mul_zero]
  have e2 : unscale sc.p (cut d.NP P') = unscale one.p (cut d.NP P) := by
    funext i
    unfold unscale cut
    by_cases hi : i < d.NP
    · rw [if_pos hi, if_pos hi, h.p i hi]
      show _ = (1 : K)⁻¹ * _
      rw [inv_one, one_mul, inv_mul_cancel_left₀ (hn.p i hi)]
    · rw [if_neg hi, if_neg hi, mul_zero, mul_zero]
  show usr.mayer _ _ D = usr.mayer _ _ D
  rw [e1, e2]

/-- What scaling does to an approximation class: functions of the unscaled variables keep their values, derivatives too for the expressions in
`good`, the cost is the same, and the dynamics rows get factors. -/
structure Equi {d : Dims} (A : Appr d K) (good : Expr K → Prop) : Prop where
  npx : 0 < A.npx
  func : ∀ {sc : Scale K} {X U P X' U' P' : ℕ → K}, Nz d sc → Rel d sc A.npx A.npu X U P X' U' P' → ∀ (D : ℕ → K) (e : Expr K),
    A.func (exprFn d sc D e) e.dep X' U' P' = A.func (exprFn d one D e) e.dep X U P
  deriv : ∀ {sc : Scale K} {X U P X' U' P' : ℕ → K}, Nz d sc → Rel d sc A.npx A.npu X U P X' U' P' → ∀ (D : ℕ → K) (e : Expr K), good e → ∀ q,
    A.deriv (exprFn d sc D e) e.dep q X' U' P' = A.deriv (exprFn d one D e) e.dep q X U P
  cost : ∀ {sc : Scale K} {X U P X' U' P' : ℕ → K}, Nz d sc → Rel d sc A.npx A.npu X U P X' U' P' → ∀ (D : ℕ → K) (usr : User K) (t0 tf : K),
    A.cost (mayerFn d sc usr D) (lagFn d sc usr D) t0 tf X' U' P' = A.cost (mayerFn d one usr D) (lagFn d one usr D) t0 tf X U P
  len : ∀ f t0 tf X U P, (A.dynamics f t0 tf X U P).1 = (A.dynamics (fun _ _ => 0) 0 0 (fun _ => 0) (fun _ => 0) fun _ => 0).1
  dyn : ∀ {sc : Scale K} {X U P X' U' P' : ℕ → K}, Nz d sc → Rel d sc A.npx A.npu X U P X' U' P' → ∀ (D : ℕ → K) (usr : User K) (t0 tf : K),
    ∀ r < (A.dynamics (fun _ _ => 0) 0 0 (fun _ => 0) (fun _ => 0) fun _ => 0).1,
      (A.dynamics (dynFn d sc usr D) t0 tf X' U' P').2 r
        = sc.x (r % d.NX) * (A.dynamics (dynFn d one (usr.paramScaled sc.p) D) t0 tf X U P).2 r

/-! ### `Chebyshev` -/

theorem node_rel {d : Dims} {sc : Scale K} {X U P X' U' P' : ℕ → K} (h : Rel d sc d.NN d.NN X U P X' U' P') {k : ℕ} (hk : k < d.NN) :
    ZRel d sc (nodeXU d X U P k) (nodeXU d X' U' P' k) := by
  intro i
  unfold nodeXU fac
  by_cases h1 : i.val < d.NX
  · rw [if_pos h1, if_pos h1, if_pos h1, h.x k hk i h1]
  · rw [if_neg h1, if_neg h1, if_neg h1]
    by_cases h2 : i.val < d.NX + d.NU
    · rw [if_pos h2, if_pos h2, if_pos h2, h.u k hk _ (by omega)]
    · rw [if_neg h2, if_neg h2, if_neg h2, h.p _ (by have := i.2; unfold Dims.M at this; omega)]

theorem cf_rel {d : Dims} {sc : Scale K} {X U P X' U' P' : ℕ → K} (hn : Nz d sc) (h : Rel d sc d.NN d.NN X U P X' U' P') (ND : ℕ) (D : ℕ → K)
    (e : Expr K) : collocateFunction d ND (exprFn d sc D e) X' U' P' = collocateFunction d ND (exprFn d one D e) X U P := by
  unfold collocateFunction
  show (if 4 ≠ nArgs d ND then none else _) = if 4 ≠ nArgs d ND then none else _
  split
  · rfl
  · congr 1
    refine loop_ext _ fun k hk F => ?_
    show setSeg F (k * e.n) e.n _ = setSeg F (k * e.n) e.n _
    rw [expr_rel hn (node_rel h hk)]

theorem mulVec_kron_scaled (M : ℕ → ℕ → K) {n : ℕ} (hn : 0 < n) (m : ℕ) (s X X' : ℕ → K) (h : ∀ k < m, ∀ i < n, X' (k * n + i) = s i * X (k * n + i))
    (k i : ℕ) (hi : i < n) : mulVec (kronEye M n) (m * n) X' (k * n + i) = s i * mulVec (kronEye M n) (m * n) X (k * n + i) := by
  rw [kron_mulVec M hi, kron_mulVec M hi, Finset.mul_sum]
  refine Finset.sum_congr rfl fun c hc => ?_
  rw [h c (Finset.mem_range.1 hc) i hi]; ring

theorem mod_blk {n i : ℕ} (k : ℕ) (hi : i < n) : (k * n + i) % n = i := by
  rw [Nat.add_comm, Nat.add_mul_mod_self_right, Nat.mod_eq_of_lt hi]

theorem cd_rel {d : Dims} (A : Approx K) {sc : Scale K} {X U P X' U' P' : ℕ → K} (hn : Nz d sc) (h : Rel d sc d.NN d.NN X U P X' U' P') (D : ℕ → K)
    (usr : User K) (t0 tf : K) {r : ℕ} (hr : r < d.VARX) : collocateDynamics d A (dynFn d sc usr D) t0 tf X' U' P' r
      = sc.x (r % d.NX) * collocateDynamics d A (dynFn d one (usr.paramScaled sc.p) D) t0 tf X U P r := by
  obtain ⟨k, i, hk, hi, rfl⟩ := blk_split hr
  have e : d.VARX = d.NN * d.NX := Nat.mul_comm _ _
  unfold collocateDynamics
  rw [rhs_closed d _ t0 tf _ _ _ hk hi, rhs_closed d _ t0 tf _ _ _ hk hi, e, mod_blk k hi]
  show mulVec (kronEye _ _) _ _ _ - _ = _ * (mulVec (kronEye _ _) _ _ _ - _)
  rw [mulVec_kron_scaled _ (by omega) d.NN sc.x X X' h.x k i hi, dyn_rel hn (node_rel h hk)]
  ring

theorem nn_seg (d : Dims) {s m : ℕ} (hs : s < d.S) (hm : m < d.N + 1) : s * d.N + m < d.NN := node_lt d hs (by omega)

theorem cheb_equi (d : Dims) (ND : ℕ) (A : Approx K) : Equi (cheb d ND A) fun _ => True where
  npx := Nat.succ_pos _
  func hn h D e := by
    show Option.map _ (collocateFunction d ND (exprFn d _ D e) _ _ _) = Option.map _ (collocateFunction d ND (exprFn d _ D e) _ _ _)
    rw [cf_rel hn h]; rfl
  deriv hn h D e _ q := by
    show Option.map _ (differentiateFunction d ND A (exprFn d _ D e) q _ _ _) = Option.map _ (differentiateFunction d ND A (exprFn d _ D e) q _ _ _)
    unfold differentiateFunction
    rw [cf_rel hn h]; rfl
  cost hn h D usr t0 tf := by
    show mayerFn _ _ _ _ _ _ + lagrangePart d A _ t0 tf _ _ _ = mayerFn _ _ _ _ _ _ + lagrangePart d A _ t0 tf _ _ _
    rw [mayer_rel hn h (Nat.succ_pos _), lagrange_closed, lagrange_closed]
    congr 1
    refine Finset.sum_congr rfl fun s hs => ?_
    congr 1
    refine Finset.sum_congr rfl fun m hm => ?_
    rw [lag_rel hn (node_rel h (nn_seg d (Finset.mem_range.1 hs) (Finset.mem_range.1 hm)))]
  len _ _ _ _ _ _ := rfl
  dyn hn h D usr t0 tf r hr := cd_rel A hn h D usr t0 tf hr

/-! ### `MSChebyshev` -/

namespace MS

theorem node_rel {d : Dims} {sc : Scale K} {X U P X' U' P' : ℕ → K} (h : Rel d sc (CasCheb.MS.NPX d) d.S X U P X' U' P') {j i : ℕ} (hj : j < d.S)
    (hi : i ≤ d.N) : ZRel d sc (CasCheb.MS.nodeXU d X U P j i) (CasCheb.MS.nodeXU d X' U' P' j i) := by
  intro a
  unfold CasCheb.MS.nodeXU fac
  rw [CasCheb.MS.off_eq]
  by_cases h1 : a.val < d.NX
  · rw [if_pos h1, if_pos h1, if_pos h1, h.x _ (blk_le (by omega) hj) a h1]
  · rw [if_neg h1, if_neg h1, if_neg h1]
    by_cases h2 : a.val < d.NX + d.NU
    · rw [if_pos h2, if_pos h2, if_pos h2, h.u j hj _ (by omega)]
    · rw [if_neg h2, if_neg h2, if_neg h2, h.p _ (by have := a.2; unfold Dims.M at this; omega)]

theorem node0_rel {d : Dims} {sc : Scale K} {X U P X' U' P' : ℕ → K} (h : Rel d sc (CasCheb.MS.NPX d) d.S X U P X' U' P') {j : ℕ} (hj : j < d.S) :
    ZRel d sc (fun a => if a.val < d.NX then X a else if a.val < d.NX + d.NU then U (j * d.NU + (a - d.NX)) else P (a - d.NX - d.NU))
      (fun a => if a.val < d.NX then X' a else if a.val < d.NX + d.NU then U' (j * d.NU + (a - d.NX)) else P' (a - d.NX - d.NU)) := by
  intro a
  unfold fac
  show ite _ _ _ = _ * ite _ _ _
  by_cases h1 : a.val < d.NX
  · have := h.x 0 (by unfold CasCheb.MS.NPX; exact Nat.mul_pos (by omega) (Nat.succ_pos _)) a h1
    rw [Nat.zero_mul, Nat.zero_add] at this
    rw [if_pos h1, if_pos h1, if_pos h1, this]
  · rw [if_neg h1, if_neg h1, if_neg h1]
    by_cases h2 : a.val < d.NX + d.NU
    · rw [if_pos h2, if_pos h2, if_pos h2, h.u j hj _ (by omega)]
    · rw [if_neg h2, if_neg h2, if_neg h2, h.p _ (by have := a.2; unfold Dims.M at this; omega)]

theorem cf_rel {d : Dims} {sc : Scale K} {X U P X' U' P' : ℕ → K} (hn : Nz d sc) (h : Rel d sc (CasCheb.MS.NPX d) d.S X U P X' U' P') (ND : ℕ)
    (D : ℕ → K) (e : Expr K) (dep : Bool) : CasCheb.MS.collocateFunction d ND (exprFn d sc D e) dep X' U' P'
      = CasCheb.MS.collocateFunction d ND (exprFn d one D e) dep X U P := by
  unfold CasCheb.MS.collocateFunction
  show (if 4 ≠ nArgs d ND then none else _) = if 4 ≠ nArgs d ND then none else _
  split
  · rfl
  · cases dep
    · show some _ = some _
      congr 2
      refine loop_ext _ fun j hj F => ?_
      show setSeg F (j * e.n) e.n _ = setSeg F (j * e.n) e.n _
      rw [expr_rel hn (node0_rel h hj)]
    · show some _ = some _
      congr 2
      refine loop_ext _ fun j hj F => loop_ext _ fun i hi F => ?_
      show setSeg F ((j * (d.N + 1) + i) * e.n) e.n _ = setSeg F ((j * (d.N + 1) + i) * e.n) e.n _
      rw [expr_rel hn (node_rel h hj (by omega))]

theorem ms_equi (d : Dims) (hS : 1 ≤ d.S) (ND : ℕ) (A : Approx K) : Equi (ms d ND A) fun e => e.dep = true where
  npx := Nat.mul_pos hS (Nat.succ_pos _)
  func hn h D e := cf_rel hn h ND D e e.dep
  deriv hn h D e hd q := by
    show CasCheb.MS.differentiateFunction d ND A (exprFn d _ D e) e.dep q _ _ _
      = CasCheb.MS.differentiateFunction d ND A (exprFn d _ D e) e.dep q _ _ _
    unfold CasCheb.MS.differentiateFunction
    rw [cf_rel hn h, hd]; rfl
  cost hn h D usr t0 tf := by
    show CasCheb.MS.collocateCost d A (some _) (some _) t0 tf _ _ _ = CasCheb.MS.collocateCost d A (some _) (some _) t0 tf _ _ _
    rw [CasCheb.MS.cost_closed, CasCheb.MS.cost_closed]
    show mayerFn _ _ _ _ _ _ + _ = mayerFn _ _ _ _ _ _ + _
    rw [mayer_rel hn h (Nat.mul_pos hS (Nat.succ_pos _))]
    congr 1
    refine Finset.sum_congr rfl fun s hs => ?_
    congr 1
    refine Finset.sum_congr rfl fun m hm => ?_
    rw [lag_rel hn (node_rel h (Finset.mem_range.1 hs) (by have := Finset.mem_range.1 hm; omega))]
  len _ _ _ _ _ _ := rfl
  dyn {sc X U P X' U' P'} hn h D usr t0 tf r hr := by
    show CasCheb.MS.collocateDynamics d A _ t0 tf X' U' P' r = _ * CasCheb.MS.collocateDynamics d A _ t0 tf X U P r
    have hx : ∀ k < CasCheb.MS.NPX d, ∀ i < d.NX, X' (k * d.NX + i) = sc.x i * X (k * d.NX + i) := h.x
    have hr : r < CasCheb.MS.xEnd d + (d.S - 1) * d.NX := hr
    rcases Nat.lt_or_ge r (CasCheb.MS.xEnd d) with h1 | h1
    · have h2 : r < d.NX * CasCheb.MS.NPX d := by rw [Nat.mul_comm]; exact h1
      obtain ⟨k, i, hk, hi, rfl⟩ := blk_split h2
      have h3 : k < (d.N + 1) * d.S := by rw [Nat.mul_comm]; exact hk
      obtain ⟨s, j, hs, hj, rfl⟩ := blk_split h3
      rw [CasCheb.MS.dynamics_closed d A _ t0 tf X' U' P' hs (by omega) hi, CasCheb.MS.dynamics_closed d A _ t0 tf X U P hs (by omega) hi,
        mod_blk _ hi, dyn_rel hn (node_rel h hs (by omega)), mul_sub, Finset.mul_sum]
      congr 1
      · refine Finset.sum_congr rfl fun l hl => ?_
        rw [hx _ (blk_le (Finset.mem_range.1 hl) hs) i hi]; ring
      · ring
    · obtain ⟨k, i, hk, hi, hki⟩ := blk_split (n := d.NX) (r := r - CasCheb.MS.xEnd d) (m := d.S - 1) (by rw [Nat.mul_comm]; omega)
      have e : r = CasCheb.MS.xEnd d + (k * d.NX + i) := by omega
      have e2 : r % d.NX = i := by
        rw [e]
        show (CasCheb.MS.NPX d * d.NX + (k * d.NX + i)) % d.NX = i
        rw [← Nat.add_assoc, ← Nat.add_mul, mod_blk _ hi]
      rw [e2, e, CasCheb.MS.gap_closed d A _ t0 tf X' U' P' (by omega) hi, CasCheb.MS.gap_closed d A _ t0 tf X U P (by omega) hi,
        hx _ (blk_le (by omega) (by omega)) i hi, hx _ ?_ i hi]
      · ring
      · have := Nat.mul_lt_mul_of_pos_right (k := d.N + 1) (show k + 1 < d.S by omega) (by omega)
        exact this

end MS

end PolyMPC.GenOcp
