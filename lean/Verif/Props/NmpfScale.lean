import Verif.Props.Nmpf

/-! # The path-following controller `nmpf`: scaling -/

namespace PolyMPC.Nmpf
open Ocp CasCheb GenOcp Spec Polynomial
open Nmpc (Mat eye Args Res put rep wsum weight store coldGuess boxX boxU)

set_option linter.unusedSectionVars false

/-- A controller with given scaling matrices and their inverses, whose state scaling keeps the motion along the path apart: the inverse `T` does not mix
states and path variables, nor the two path variables. -/
structure Scaled {K : Type} [Field K] (nx nu : ℕ) (o : Opts K) (S T V W : Mat K) : Prop where
  on : o.scaling = some true
  x : o.scaleX = some (S, T)
  u : o.scaleU = some (V, W)
  nS : S.n = nx + 2
  nT : T.n = nx + 2
  nV : V.n = nu + 1
  nW : W.n = nu + 1
  invX : IsInv (nx + 2) S.a T.a
  invU : IsInv (nu + 1) V.a W.a
  apart : ∀ i < nx, ∀ j, nx ≤ j → j < nx + 2 → T.a i j = 0
  apartθ : ∀ j < nx + 2, j ≠ nx → T.a nx j = 0
  apartω : ∀ j < nx + 2, j ≠ nx + 1 → T.a (nx + 1) j = 0

section Field
variable {K : Type} [Field K] [LinearOrder K] [IsStrictOrderedRing K] {nx nu NS N : ℕ} {o : Opts K} {S T V W : Mat K} (sc : Scaled nx nu o S T V W)
include sc

/-- The same matrices as options of the tracking controller. -/
theorem Scaled.nmpc : Nmpc.Scaled (aug nx nu NS N) { scaling := some true, scaleX := some (S, T), scaleU := some (V, W) } S T V W :=
  ⟨rfl, rfl, rfl, sc.nS, sc.nT, sc.nV, sc.nW, sc.invX, sc.invU⟩

theorem Scaled.scale : o.scale = true := by unfold Opts.scale; rw [sc.on]; rfl
theorem Scaled.SX : initSX nx o = (S, T) := by unfold initSX; rw [sc.scale, sc.x]; rfl
theorem Scaled.SU : initSU nu o = (V, W) := by unfold initSU; rw [sc.scale, sc.u]; rfl

theorem Scaled.ode_eq (sys : Sys K) : ode nx nu NS N sys o
    = Nmpc.ode (aug nx nu NS N) ⟨sys.ny, augF nx nu sys, sys.out⟩ { scaling := some true, scaleX := some (S, T), scaleU := some (V, W) } := by
  funext z
  unfold ode Nmpc.ode
  rw [sc.scale, sc.SX, sc.SU]
  rfl

theorem Scaled.vel_inv : T.a (nx + 1) (nx + 1) * S.a (nx + 1) (nx + 1) = 1 := by
  have h := sc.invX.1 (nx + 1) (by omega) (nx + 1) (by omega)
  rw [if_pos rfl, Finset.sum_eq_single (nx + 1)] at h
  · exact h
  · intro j hj hne; rw [sc.apartω j (Finset.mem_range.1 hj) hne, zero_mul]
  · intro hn; exact absurd (Finset.mem_range.2 (by omega)) hn

theorem Scaled.th_inv : T.a nx nx * S.a nx nx = 1 := by
  have h := sc.invX.1 nx (by omega) nx (by omega)
  rw [if_pos rfl, Finset.sum_eq_single nx] at h
  · exact h
  · intro j hj hne; rw [sc.apartθ j (Finset.mem_range.1 hj) hne, zero_mul]
  · intro hn; exact absurd (Finset.mem_range.2 (by omega)) hn

/-- Rows of `T` on the path variables. -/
theorem Scaled.rowθ (y : ℕ → K) : lin (nx + 2) T.a y nx = T.a nx nx * y nx := by
  unfold lin
  rw [if_pos (by omega), Finset.sum_eq_single nx]
  · intro j hj hne; rw [sc.apartθ j (Finset.mem_range.1 hj) hne, zero_mul]
  · intro hn; exact absurd (Finset.mem_range.2 (by omega)) hn

theorem Scaled.rowω (y : ℕ → K) : lin (nx + 2) T.a y (nx + 1) = T.a (nx + 1) (nx + 1) * y (nx + 1) := by
  unfold lin
  rw [if_pos (by omega), Finset.sum_eq_single (nx + 1)]
  · intro j hj hne; rw [sc.apartω j (Finset.mem_range.1 hj) hne, zero_mul]
  · intro hn; exact absurd (Finset.mem_range.2 (by omega)) hn

/-- The upper left block acts on the states as `T` does. -/
theorem Scaled.block_eq (y : ℕ → K) : (block nx T).app nx (cut nx y) = cut nx (lin (nx + 2) T.a y) := by
  funext i
  unfold Nmpc.Mat.app cut lin block
  by_cases hi : i < nx
  · rw [if_pos hi]
    show ite (nx = nx) _ _ = _
    rw [if_pos rfl, if_pos hi, if_pos (show i < nx + 2 by omega), Finset.sum_range_succ, Finset.sum_range_succ, sc.apart i hi nx (by omega) (by omega),
      sc.apart i hi (nx + 1) (by omega) (by omega), zero_mul, zero_mul, add_zero, add_zero]
    refine Finset.sum_congr rfl fun j hj => ?_
    rw [if_pos (Finset.mem_range.1 hj)]
  · rw [if_neg hi, if_neg hi]

theorem Scaled.back (y : ℕ → K) : lin (nx + 2) T.a (lin (nx + 2) S.a y) = part (nx + 2) y 0 := Nmpc.lin_inv sc.invX.1 y

/-- The residual at a scaled state is the one at the state. -/
theorem Scaled.residual_at (sys : Sys K) (pth : K → (ℕ → K) → ℕ → K) (pp y : ℕ → K) :
    residual nx sys o pth pp (lin (nx + 2) S.a y) = fun i => pth (y nx) pp i - sys.out (cut nx y) i := by
  unfold residual
  rw [sc.scale, sc.SX]
  funext i
  show pth (T.a nx nx * _) pp i - sys.out ((block nx T).app nx _) i = _
  rw [sc.block_eq, ← sc.rowθ, sc.back]
  have e1 : part (nx + 2) y 0 nx = y nx := by unfold part; rw [if_pos (by omega), Nat.zero_add]
  have e2 : cut nx (part (nx + 2) y 0) = cut nx y := by
    funext j
    unfold cut part
    by_cases hj : j < nx
    · rw [if_pos hj, if_pos hj, if_pos (by omega), Nat.zero_add]
    · rw [if_neg hj, if_neg hj]
  rw [e1, e2]

theorem Scaled.vel_at (vel : K) (y : ℕ → K) : velRes nx o (S.a (nx + 1) (nx + 1) * vel) (lin (nx + 2) S.a y) = vel - y (nx + 1) := by
  unfold velRes
  rw [sc.SX]
  show T.a (nx + 1) (nx + 1) * (_ - _) = _
  rw [mul_sub, ← mul_assoc, sc.vel_inv, one_mul, ← sc.rowω, sc.back]
  show vel - (if nx + 1 < nx + 2 then y (0 + (nx + 1)) else 0) = _
  rw [if_pos (by omega), Nat.zero_add]

end Field

/-- **C148.** Scaling leaves the program unchanged: at a scaled point, with the reference velocity multiplied by the scale of the velocity along the path, objective
and constraints are those of the unscaled controller, for every invertible scaling that keeps the path variables apart. In contrast to `nmpc` this includes the
control effort. -/
theorem scaling_invariant {nx nu NS N : ℕ} {sys : Sys ℝ} {o : Opts ℝ} {S T V W : Mat ℝ} (sc : Scaled nx nu o S T V W) {tf : ℝ} (hS : 1 ≤ NS) (hN : 1 ≤ N)
    (p v : ℕ → ℝ) (hpath : (pathFn sys o).isSome) :
    ∃ q q', nlp nx nu NS N (scheme N) sys o tf (put p 0 1 fun _ => S.a (nx + 1) (nx + 1) * p 0) (linPoint (nx + 2) (nu + 1) (NS * N + 1) S.a V.a v) = some q ∧
      nlp nx nu NS N (scheme N) sys { o with scaling := none } tf p v = some q' ∧ q.f = q'.f ∧ q.n = q'.n ∧
      ((∀ r < q.n, q.g r = 0) ↔ ∀ r < q'.n, q'.g r = 0) := by
  obtain ⟨pth, hp⟩ := Option.isSome_iff_exists.1 hpath
  have hp' : pathFn sys { o with scaling := none } = some pth := hp
  obtain ⟨q, hq⟩ : ∃ q, nlp nx nu NS N (scheme N) sys o tf (put p 0 1 fun _ => S.a (nx + 1) (nx + 1) * p 0)
      (linPoint (nx + 2) (nu + 1) (NS * N + 1) S.a V.a v) = some q := by unfold nlp; rw [hp]; exact ⟨_, rfl⟩
  obtain ⟨q', hq'⟩ : ∃ q, nlp nx nu NS N (scheme N) sys { o with scaling := none } tf p v = some q := by unfold nlp; rw [hp']; exact ⟨_, rfl⟩
  refine ⟨q, q', hq, hq', ?_, ?_, ?_⟩
  all_goals
    obtain ⟨pth1, a0, -, a2, a3, a4⟩ := nlp_ok hq
    obtain ⟨pth2, b0, -, b2, b3, b4⟩ := nlp_ok hq'
    obtain rfl : pth1 = pth := Option.some.inj (a0.symm.trans hp)
    obtain rfl : pth2 = pth1 := Option.some.inj (b0.symm.trans hp')
  · have hpp : (fun i => put p 0 1 (fun _ => S.a (nx + 1) (nx + 1) * p 0) (1 + i)) = fun i => p (1 + i) := by
      funext i; exact Nmpc.put_out _ _ _ _ (Or.inr (by omega))
    have hp0 : put p 0 1 (fun _ => S.a (nx + 1) (nx + 1) * p 0) 0 = S.a (nx + 1) (nx + 1) * p 0 := Nmpc.put_in _ 0 1 _ (i := 0) (by omega)
    have hoff : ({ o with scaling := none } : Opts ℝ).scaling.getD false = false := rfl
    rw [a3, b3]
    unfold collocateCost
    simp only []
    rw [lagrange_closed, lagrange_closed]
    refine congrArg₂ (· + ·) ?_ (Finset.sum_congr rfl fun s hs => ?_)
    · rw [mayer_off hoff]
      unfold mayer
      rw [hpp]
      have e : cut (nx + 2) (linPoint (nx + 2) (nu + 1) (NS * N + 1) S.a V.a v) = lin (nx + 2) S.a (xAt (aug nx nu NS N) v 0) := by
        have := Nmpc.xAt_lin (aug nx nu NS N) S.a V.a v (zero_lt_NN _)
        refine Eq.trans ?_ this
        unfold xAt; rw [cut_part, Nat.zero_mul]; rfl
      rw [e, sc.residual_at, xAt_px, xAt_th]
    · congr 1
      refine Finset.sum_congr rfl fun m hm => ?_
      have hm' : m < N + 1 := Finset.mem_range.1 hm
      have hs' : s < NS := Finset.mem_range.1 hs
      have hk := node_lt (aug nx nu NS N) hs' (Nat.le_of_lt_succ hm')
      congr 1
      rw [lag_off hoff]
      unfold lagrange
      rw [sc.scale, hpp, hp0, zx_node, zu_node, Nmpc.uAt_eq]
      have ex : part (aug nx nu NS N).NX (linPoint (nx + 2) (nu + 1) (NS * N + 1) S.a V.a v) ((s * N + m) * (aug nx nu NS N).NX)
          = lin (nx + 2) S.a (xAt (aug nx nu NS N) v (s * N + m)) := Nmpc.xAt_lin (aug nx nu NS N) S.a V.a v hk
      have eu : uAt (aug nx nu NS N) (linPoint (nx + 2) (nu + 1) (NS * N + 1) S.a V.a v) (s * N + m)
          = lin (nu + 1) V.a (uAt (aug nx nu NS N) v (s * N + m)) := Nmpc.uAt_lin (aug nx nu NS N) S.a V.a v hk
      rw [show (aug nx nu NS N).N = N from rfl, ex, eu, sc.residual_at, sc.vel_at, sc.SU, xAt_px, xAt_th, xAt_om]
      show _ + o.W.getD 1 * _ + wsum (nu + 1) (weight o.R) (W.app (nu + 1) _) = _
      rw [Nmpc.app_lin sc.nW, Nmpc.lin_inv sc.invU.1]
      congr 2
      exact Nmpc.part_part (nu + 1) v _
  · rw [a2, b2]
  · rw [a2, b2, a4, b4, sc.ode_eq]
    have hrow := fun {s j : ℕ} (hs : s < NS) (hj : j ≤ N) (hjs : j < N ∨ s + 1 = NS) {i : ℕ} (hi : i < nx + 2) =>
      (sc.nmpc (NS := NS) (N := N)).row ⟨sys.ny, augF nx nu sys, sys.out⟩ (scheme N) tf v hs hj hjs hi
    have hode : ode nx nu NS N sys { o with scaling := none } = fun z => augF nx nu sys (zx _ z) (zu _ z) := by
      funext z; unfold ode; rfl
    rw [hode]
    constructor
    · intro hz r hr
      obtain ⟨k, i, hk, hi, rfl⟩ := blk_split hr
      obtain ⟨s, j, hs, hj, hjs, rfl⟩ := node_split (aug nx nu NS N) hS hN hk
      refine ((sc.nmpc (NS := NS) (N := N)).lin_zero fun q => collocateDynamics (aug nx nu NS N) (scheme N) (fun z => augF nx nu sys (zx _ z) (zu _ z)) 0 tf v
        (fun i => v ((aug nx nu NS N).VARX + i)) (fun _ => 0) ((s * N + j) * (nx + 2) + q)).1 (fun q hq => ?_) i hi
      have := hrow hs hj hjs hq
      refine this.symm.trans ?_
      exact hz _ (xIdx_lt (aug nx nu NS N) (node_lt (aug nx nu NS N) hs hj) hq)
    · intro hz r hr
      obtain ⟨k, i, hk, hi, rfl⟩ := blk_split hr
      obtain ⟨s, j, hs, hj, hjs, rfl⟩ := node_split (aug nx nu NS N) hS hN hk
      refine (hrow hs hj hjs hi).trans ?_
      exact ((sc.nmpc (NS := NS) (N := N)).lin_zero _).2 (fun q hq => hz _ (xIdx_lt (aug nx nu NS N) (node_lt (aug nx nu NS N) hs hj) hq)) i hi

/-- One state scaled by `2`, path variable by `1/2`, its velocity by `5`; control by `3`, acceleration by `7`. -/
def exScale : Opts ℚ where
  scaling := some true
  scaleX := some (⟨3, fun i j => if i = j then if i = 0 then 2 else if i = 1 then 1 / 2 else 5 else 0⟩,
    ⟨3, fun i j => if i = j then if i = 0 then 1 / 2 else if i = 1 then 2 else 1 / 5 else 0⟩)
  scaleU := some (⟨2, fun i j => if i = j then if i = 0 then 3 else 7 else 0⟩, ⟨2, fun i j => if i = j then if i = 0 then 1 / 3 else 1 / 7 else 0⟩)
  resetAfter := 6

example : ∃ S T V W, Scaled 1 1 exScale S T V W :=
  ⟨_, _, _, _, ⟨rfl, rfl, rfl, rfl, rfl, rfl, rfl, by unfold IsInv; decide +kernel, by unfold IsInv; decide +kernel,
    by intro i hi j h1 h2; have : j = 1 ∨ j = 2 := by omega
       obtain rfl : i = 0 := by omega
       rcases this with rfl | rfl <;> decide +kernel, by decide +kernel, by decide +kernel⟩⟩

/-- A scaling that mixes state and path variable: `(x, θ) ↦ (x + θ, θ)`. The residual at the scaled state `(3, 1)`, that is at `x = 2`, `θ = 1`, should be
`1 - 2` for the path `θ ↦ θ` but is `1 - 3`. -/
example : residual 1 ⟨1, fun _ _ _ => 0, fun x => x, some fun θ _ => θ, none, fun _ _ _ => 0⟩
    ({ scaling := some true, resetAfter := 6, scaleX := some (⟨3, fun i j => if i = j ∨ (i = 0 ∧ j = 1) then 1 else 0⟩,
      ⟨3, fun i j => if i = j then 1 else if i = 0 ∧ j = 1 then -1 else 0⟩) } : Opts ℚ) (fun θ _ _ => θ) (fun _ => 0)
    (fun i => if i = 0 then 3 else 1) 0 = -2 := by decide +kernel

end PolyMPC.Nmpf
