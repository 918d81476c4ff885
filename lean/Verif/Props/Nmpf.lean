import Verif.Model.Nmpf
import Verif.Props.NmpcUse

/-! # The path-following controller `nmpf`: the program -/

namespace PolyMPC.Nmpf
open Ocp CasCheb GenOcp Spec Polynomial
open Nmpc (Mat eye Args Res put rep wsum weight store coldGuess boxX boxU)

set_option linter.unusedSectionVars false

/-! ### Reading a point

A point has at each node `k` the states `px k`, the path variable `th k`, its velocity `om k`; then at each node the controls `pu k` and the acceleration
`ac k` of the path variable. -/

section Read
variable {K : Type} [Zero K]
def px (nx : ℕ) (v : ℕ → K) (k : ℕ) : ℕ → K := part nx v (k * (nx + 2))
def th (nx : ℕ) (v : ℕ → K) (k : ℕ) : K := v (k * (nx + 2) + nx)
def om (nx : ℕ) (v : ℕ → K) (k : ℕ) : K := v (k * (nx + 2) + nx + 1)
def pu (nx nu NN : ℕ) (v : ℕ → K) (k : ℕ) : ℕ → K := part nu v (NN * (nx + 2) + k * (nu + 1))
def ac (nx nu NN : ℕ) (v : ℕ → K) (k : ℕ) : K := v (NN * (nx + 2) + k * (nu + 1) + nu)
end Read

section Field
variable {K : Type} [Field K] [LinearOrder K] [IsStrictOrderedRing K] {nx nu S N : ℕ}

theorem xAt_px (v : ℕ → K) (k : ℕ) : cut nx (xAt (aug nx nu S N) v k) = px nx v k := by
  funext i
  unfold cut xAt px part
  by_cases hi : i < nx
  · rw [if_pos hi, if_pos hi]; exact if_pos (show i < nx + 2 by omega)
  · rw [if_neg hi, if_neg hi]

theorem xAt_th (v : ℕ → K) (k : ℕ) : xAt (aug nx nu S N) v k nx = th nx v k := if_pos (show nx < nx + 2 by omega)
theorem xAt_om (v : ℕ → K) (k : ℕ) : xAt (aug nx nu S N) v k (nx + 1) = om nx v k := if_pos (show nx + 1 < nx + 2 by omega)
theorem uAt_pu (v : ℕ → K) (k : ℕ) : cut nu (uAt (aug nx nu S N) v k) = pu nx nu (S * N + 1) v k := by
  funext i
  unfold cut uAt pu part
  by_cases hi : i < nu
  · rw [if_pos hi, if_pos hi]; exact if_pos (show i < nu + 1 by omega)
  · rw [if_neg hi, if_neg hi]
theorem uAt_ac (v : ℕ → K) (k : ℕ) : uAt (aug nx nu S N) v k nu = ac nx nu (S * N + 1) v k := if_pos (show nu < nu + 1 by omega)

theorem augF_x (sys : Sys K) (v : ℕ → K) (k : ℕ) {i : ℕ} (hi : i < nx) :
    augF nx nu sys (xAt (aug nx nu S N) v k) (uAt (aug nx nu S N) v k) i = sys.f (px nx v k) (pu nx nu (S * N + 1) v k) i := by
  unfold augF; rw [if_pos hi, xAt_px, uAt_pu]
theorem augF_th (sys : Sys K) (v : ℕ → K) (k : ℕ) :
    augF nx nu sys (xAt (aug nx nu S N) v k) (uAt (aug nx nu S N) v k) nx = om nx v k := by
  unfold augF; rw [if_neg (by omega), if_pos rfl, xAt_om]
theorem augF_om (sys : Sys K) (v : ℕ → K) (k : ℕ) :
    augF nx nu sys (xAt (aug nx nu S N) v k) (uAt (aug nx nu S N) v k) (nx + 1) = ac nx nu (S * N + 1) v k := by
  unfold augF; rw [if_neg (by omega), if_neg (by omega), if_pos rfl, uAt_ac]

theorem ode_off {sys : Sys K} {o : Opts K} (h : o.scaling.getD false = false) (v : ℕ → K) (k : ℕ) :
    ode nx nu S N sys o (nodeXU (aug nx nu S N) v (fun i => v ((aug nx nu S N).VARX + i)) (fun _ => 0) k)
      = augF nx nu sys (xAt (aug nx nu S N) v k) (uAt (aug nx nu S N) v k) := by
  unfold ode
  have h' : o.scale = false := h
  rw [h', zx_node, zu_node, Nmpc.uAt_eq]
  rfl

theorem residual_off {sys : Sys K} {o : Opts K} (h : o.scaling.getD false = false) (pth : K → (ℕ → K) → ℕ → K) (pp v : ℕ → K) (k : ℕ) :
    residual nx sys o pth pp (xAt (aug nx nu S N) v k) = fun i => pth (th nx v k) pp i - sys.out (px nx v k) i := by
  have h' : o.scale = false := h
  unfold residual
  rw [h', xAt_px, xAt_th]
  rfl

theorem lag_off {sys : Sys K} {o : Opts K} (h : o.scaling.getD false = false) (pth : K → (ℕ → K) → ℕ → K) (p v : ℕ → K) (k : ℕ) :
    lagrange nx nu S N sys o pth p (nodeXU (aug nx nu S N) v (fun i => v ((aug nx nu S N).VARX + i)) (fun _ => 0) k)
      = wsum sys.ny (weight o.Q) (fun i => pth (th nx v k) (fun i => p (1 + i)) i - sys.out (px nx v k) i)
        + o.W.getD 1 * (p 0 - om nx v k) ^ 2 + wsum (nu + 1) (weight o.R) (uAt (aug nx nu S N) v k) := by
  have h' : o.scale = false := h
  unfold lagrange
  rw [h', zx_node, zu_node, Nmpc.uAt_eq]
  show wsum _ _ (residual nx sys o pth _ (xAt (aug nx nu S N) v k)) + o.W.getD 1 * (p 0 - xAt (aug nx nu S N) v k (nx + 1)) ^ 2 + _ = _
  rw [residual_off h, xAt_om]
  rfl

theorem mayer_off {sys : Sys K} {o : Opts K} (h : o.scaling.getD false = false) (pth : K → (ℕ → K) → ℕ → K) (p v q : ℕ → K) :
    mayer nx sys o pth p v q = wsum sys.ny (weight o.Q) fun i => pth (th nx v 0) (fun i => p (1 + i)) i - sys.out (px nx v 0) i := by
  unfold mayer
  have e : cut (nx + 2) v = xAt (aug nx 0 1 1) v 0 := by unfold xAt; rw [cut_part, Nat.zero_mul]; rfl
  rw [e, residual_off h]

theorem nlp_ok {A : Approx K} {sys : Sys K} {o : Opts K} {tf : K} {p v : ℕ → K} {q : Nmpc.Nlp K} (h : nlp nx nu S N A sys o tf p v = some q) :
    ∃ pth, pathFn sys o = some pth ∧ q.nVar = (aug nx nu S N).VARX + (aug nx nu S N).VARU ∧ q.n = (aug nx nu S N).VARX ∧
    q.f = collocateCost (aug nx nu S N) A (some (mayer nx sys o pth p)) (some (lagrange nx nu S N sys o pth p)) 0 tf v
      (fun i => v ((aug nx nu S N).VARX + i)) (fun _ => 0) ∧
    q.g = collocateDynamics (aug nx nu S N) A (ode nx nu S N sys o) 0 tf v (fun i => v ((aug nx nu S N).VARX + i)) fun _ => 0 := by
  unfold nlp at h
  obtain ⟨pth, h1, rfl⟩ := Nmpc.map_some h
  exact ⟨pth, h1, rfl, rfl, rfl, rfl⟩

end Field

/-! ### C145: what the program means -/

/-- At the nodes of a segment at which the transcription asks for the differential equation: all but the earliest one, and that one too on the segment that
starts the horizon. -/
def asked (S N s j : ℕ) : Prop := j ≤ N ∧ (j < N ∨ s + 1 = S)

/-- Values `y` at the nodes of segment `s` are those of a polynomial of degree at most `N` whose derivative at the nodes asked for is `dy`. -/
def Solves (S N : ℕ) (tf : ℝ) (s : ℕ) (y dy : ℕ → ℝ) : Prop :=
  ∃ Q : ℝ[X], Q.natDegree ≤ N ∧ (∀ l ≤ N, Q.eval (segTime S N 0 tf s l) = y (s * N + l)) ∧
    ∀ j, asked S N s j → Q.derivative.eval (segTime S N 0 tf s j) = dy (s * N + j)

variable {nx nu S N : ℕ}

theorem rows_iff (sys : Sys ℝ) (f : (Fin (aug nx nu S N).M → ℝ) → ℕ → ℝ) (v : ℕ → ℝ) (hS : 1 ≤ S) (hN : 1 ≤ N) {tf : ℝ} (h : 0 < tf)
    (hf : ∀ k, f (nodeXU (aug nx nu S N) v (fun i => v ((aug nx nu S N).VARX + i)) (fun _ => 0) k)
      = augF nx nu sys (xAt (aug nx nu S N) v k) (uAt (aug nx nu S N) v k)) :
    (∀ r < (aug nx nu S N).VARX, collocateDynamics (aug nx nu S N) (scheme N) f 0 tf v (fun i => v ((aug nx nu S N).VARX + i)) (fun _ => 0) r = 0) ↔
    ∀ s < S, (∀ i < nx, Solves S N tf s (fun k => px nx v k i) fun k => sys.f (px nx v k) (pu nx nu (S * N + 1) v k) i) ∧
      Solves S N tf s (th nx v) (om nx v) ∧ Solves S N tf s (om nx v) (ac nx nu (S * N + 1) v) := by
  have key := dynamics_iff (aug nx nu S N) f v (fun i => v ((aug nx nu S N).VARX + i)) (fun _ => 0) hS hN h
  refine key.trans ?_
  have e : ∀ s i, i < nx + 2 → ((∃ Q : ℝ[X], Q.natDegree ≤ N ∧ (∀ l ≤ N, Q.eval (segTime S N 0 tf s l) = v ((s * N + l) * (nx + 2) + i)) ∧
      ∀ j ≤ N, (j < N ∨ s + 1 = S) → Q.derivative.eval (segTime S N 0 tf s j)
        = f (nodeXU (aug nx nu S N) v (fun i => v ((aug nx nu S N).VARX + i)) (fun _ => 0) (s * N + j)) i) ↔
      Solves S N tf s (fun k => v (k * (nx + 2) + i)) fun k => augF nx nu sys (xAt (aug nx nu S N) v k) (uAt (aug nx nu S N) v k) i) := fun s i hi => by
    unfold Solves asked
    refine exists_congr fun Q => and_congr_right fun _ => and_congr Iff.rfl ?_
    exact ⟨fun h j hj => by rw [h j hj.1 hj.2, hf], fun h j h1 h2 => by rw [h j ⟨h1, h2⟩, hf]⟩
  have hx : ∀ s i, i < nx → (Solves S N tf s (fun k => v (k * (nx + 2) + i)) (fun k => augF nx nu sys (xAt (aug nx nu S N) v k) (uAt (aug nx nu S N) v k) i) ↔
      Solves S N tf s (fun k => px nx v k i) fun k => sys.f (px nx v k) (pu nx nu (S * N + 1) v k) i) := fun s i hi => by
    have e1 : (fun k => v (k * (nx + 2) + i)) = fun k => px nx v k i := funext fun k => (if_pos hi).symm
    have e2 : (fun k => augF nx nu sys (xAt (aug nx nu S N) v k) (uAt (aug nx nu S N) v k) i) = fun k => sys.f (px nx v k) (pu nx nu (S * N + 1) v k) i :=
      funext fun k => augF_x sys v k hi
    rw [e1, e2]
  have ht : (fun k => augF nx nu sys (xAt (aug nx nu S N) v k) (uAt (aug nx nu S N) v k) nx) = om nx v := funext fun k => augF_th sys v k
  have ho : (fun k => augF nx nu sys (xAt (aug nx nu S N) v k) (uAt (aug nx nu S N) v k) (nx + 1)) = ac nx nu (S * N + 1) v := funext fun k => augF_om sys v k
  refine forall₂_congr fun s hs => ?_
  constructor
  · intro hq
    refine ⟨fun i hi => (hx s i hi).1 ((e s i (by omega)).1 (hq i (show i < nx + 2 by omega))), ?_, ?_⟩
    · have := (e s nx (by omega)).1 (hq nx (show nx < nx + 2 by omega))
      rw [ht] at this; exact this
    · have := (e s (nx + 1) (by omega)).1 (hq (nx + 1) (show nx + 1 < nx + 2 by omega))
      rw [ho] at this; exact this
  · rintro ⟨h1, h2, h3⟩ i hi
    refine (e s i hi).2 ?_
    have hi : i < nx + 2 := hi
    rcases Nat.lt_or_ge i nx with hlt | hge
    · exact (hx s i hlt).2 (h1 i hlt)
    · rcases Nat.eq_or_lt_of_le hge with rfl | hgt
      · rw [ht]; exact h2
      · obtain rfl : i = nx + 1 := by omega
        rw [ho]; exact h3

/-- **C145.** The program of an unscaled controller with reference velocity `p 0` and path parameters `p 1, ...`. Objective: distance from the path at the end
of the horizon plus the composite quadrature of distance from the path, deviation from the reference velocity, and control effort including the acceleration
of the path variable. Constraints: states, path variable and its velocity are polynomials on each segment that satisfy `x' = f(x, u)`, `θ' = ω`, `ω' = a` at
all nodes of the segment but its earliest, and on the first segment also at the initial time. -/
theorem program_meaning {sys : Sys ℝ} {o : Opts ℝ} {tf : ℝ} {p v : ℕ → ℝ} {q : Nmpc.Nlp ℝ} (hS : 1 ≤ S) (hN : 1 ≤ N) (h : 0 < tf)
    (ho : o.scaling.getD false = false) (hq : nlp nx nu S N (scheme N) sys o tf p v = some q) :
    q.nVar = (nx + 2) * (S * N + 1) + (nu + 1) * (S * N + 1) ∧
    (∃ pth, pathFn sys o = some pth ∧ q.f = wsum sys.ny (weight o.Q) (fun i => pth (th nx v 0) (fun i => p (1 + i)) i - sys.out (px nx v 0) i)
      + ∑ s ∈ Finset.range S, tf / (2 * S) * ∑ m ∈ Finset.range (N + 1), (scheme N).w m *
          (wsum sys.ny (weight o.Q) (fun i => pth (th nx v (s * N + m)) (fun i => p (1 + i)) i - sys.out (px nx v (s * N + m)) i)
            + o.W.getD 1 * (p 0 - om nx v (s * N + m)) ^ 2
            + wsum (nu + 1) (weight o.R) fun i => if i < nu then pu nx nu (S * N + 1) v (s * N + m) i else ac nx nu (S * N + 1) v (s * N + m))) ∧
    ((∀ r < q.n, q.g r = 0) ↔
      ∀ s < S, (∀ i < nx, Solves S N tf s (fun k => px nx v k i) fun k => sys.f (px nx v k) (pu nx nu (S * N + 1) v k) i) ∧
        Solves S N tf s (th nx v) (om nx v) ∧ Solves S N tf s (om nx v) (ac nx nu (S * N + 1) v)) := by
  obtain ⟨pth, h0, h1, h2, h3, h4⟩ := nlp_ok hq
  refine ⟨h1, ⟨pth, h0, ?_⟩, ?_⟩
  · rw [h3]
    unfold collocateCost
    simp only []
    rw [mayer_off ho, lagrange_closed]
    congr 1
    refine Finset.sum_congr rfl fun s _ => ?_
    have e : CasCheb.tScale (aug nx nu S N) 0 tf = tf / (2 * S) := by unfold CasCheb.tScale aug; push_cast; rw [sub_zero]
    rw [e]
    congr 1
    refine Finset.sum_congr rfl fun m _ => ?_
    rw [lag_off ho]
    congr 2
    unfold wsum
    refine Finset.sum_congr rfl fun i _ => Finset.sum_congr rfl fun j hj => ?_
    have hj := Finset.mem_range.1 hj
    congr 2
    beta_reduce
    by_cases hj' : j < nu
    · rw [if_pos hj']
      have := congrFun (uAt_pu (nx := nx) (nu := nu) (S := S) (N := N) v (s * N + m)) j
      rw [← this]; exact (if_pos hj').symm
    · obtain rfl : j = nu := by omega
      rw [if_neg hj']; exact uAt_ac v (s * N + m)
  · rw [h2, h4]
    exact rows_iff sys _ v hS hN h fun k => ode_off ho v k

/-! ### C146: the motion along the path is free -/

theorem Solves.congr {tf : ℝ} {s : ℕ} {y dy y' dy' : ℕ → ℝ} (hs : s < S) (h1 : ∀ k ≤ S * N, y k = y' k) (h2 : ∀ k ≤ S * N, dy k = dy' k)
    (h : Solves S N tf s y dy) : Solves S N tf s y' dy' := by
  have hk : ∀ l ≤ N, s * N + l ≤ S * N := fun l hl => by
    calc s * N + l ≤ s * N + N := by omega
      _ = (s + 1) * N := (Nat.succ_mul s N).symm
      _ ≤ S * N := Nat.mul_le_mul_right N hs
  obtain ⟨Q, hQ, hv, hd⟩ := h
  exact ⟨Q, hQ, fun l hl => (hv l hl).trans (h1 _ (hk l hl)), fun j hj => (hd j hj).trans (h2 _ (hk j hj.1))⟩

/-- Time of node `k`. -/
noncomputable def nodeTime (S N : ℕ) (tf : ℝ) (k : ℕ) : ℝ := segTime S N 0 tf (k / N) (k % N)

theorem nodeTime_eq (hN : 1 ≤ N) (tf : ℝ) {s l : ℕ} (hl : l ≤ N) : nodeTime S N tf (s * N + l) = segTime S N 0 tf s l := by
  unfold nodeTime
  rcases Nat.lt_or_ge l N with h | h
  · rw [Nat.add_comm, Nat.add_mul_div_right _ _ (by omega), Nat.div_eq_of_lt h, Nat.zero_add, Nat.add_mul_mod_self_right, Nat.mod_eq_of_lt h]
  · obtain rfl : l = N := by omega
    rw [← Nat.succ_mul, Nat.mul_div_cancel _ (by omega), Nat.mul_mod_left, segTime_eq, segTime_eq, (points_ends hN).1, (points_ends hN).2]
    push_cast; ring

/-- The point `v` with the motion along the path replaced: path variable, velocity and acceleration at node `k` are `a k`, `b k`, `c k`. -/
def setMotion (nx nu NN : ℕ) (v a b c : ℕ → ℝ) : ℕ → ℝ := fun i =>
  if i < NN * (nx + 2) then if i % (nx + 2) < nx then v i else if i % (nx + 2) = nx then a (i / (nx + 2)) else b (i / (nx + 2))
  else if (i - NN * (nx + 2)) % (nu + 1) < nu then v i else c ((i - NN * (nx + 2)) / (nu + 1))

theorem blk_mod {n k i : ℕ} (hi : i < n) : (k * n + i) % n = i ∧ (k * n + i) / n = k := by
  constructor
  · rw [Nat.add_comm, Nat.add_mul_mod_self_right, Nat.mod_eq_of_lt hi]
  · rw [Nat.add_comm, Nat.add_mul_div_right _ _ (by omega), Nat.div_eq_of_lt hi, Nat.zero_add]

theorem setMotion_reads (NN : ℕ) (v a b c : ℕ → ℝ) {k : ℕ} (hk : k < NN) :
    px nx (setMotion nx nu NN v a b c) k = px nx v k ∧ th nx (setMotion nx nu NN v a b c) k = a k ∧ om nx (setMotion nx nu NN v a b c) k = b k ∧
    pu nx nu NN (setMotion nx nu NN v a b c) k = pu nx nu NN v k ∧ ac nx nu NN (setMotion nx nu NN v a b c) k = c k := by
  have hx : ∀ i < nx + 2, k * (nx + 2) + i < NN * (nx + 2) := fun i hi => blk_le hi hk
  refine ⟨?_, ?_, ?_, ?_, ?_⟩
  · funext i
    unfold px part
    by_cases hi : i < nx
    · rw [if_pos hi, if_pos hi]
      unfold setMotion
      rw [if_pos (hx i (by omega)), (blk_mod (show i < nx + 2 by omega)).1, if_pos hi]
    · rw [if_neg hi, if_neg hi]
  · unfold th setMotion
    rw [if_pos (hx nx (by omega)), (blk_mod (show nx < nx + 2 by omega)).1, (blk_mod (show nx < nx + 2 by omega)).2, if_neg (by omega), if_pos rfl]
  · unfold om setMotion
    rw [Nat.add_assoc, if_pos (hx (nx + 1) (by omega)), (blk_mod (show nx + 1 < nx + 2 by omega)).1, (blk_mod (show nx + 1 < nx + 2 by omega)).2,
      if_neg (by omega), if_neg (by omega)]
  · funext i
    unfold pu part
    by_cases hi : i < nu
    · rw [if_pos hi, if_pos hi]
      unfold setMotion
      rw [Nat.add_assoc, if_neg (by omega), Nat.add_sub_cancel_left, (blk_mod (show i < nu + 1 by omega)).1, if_pos hi]
    · rw [if_neg hi, if_neg hi]
  · unfold ac setMotion
    rw [Nat.add_assoc, if_neg (by omega), Nat.add_sub_cancel_left, (blk_mod (show nu < nu + 1 by omega)).1, (blk_mod (show nu < nu + 1 by omega)).2,
      if_neg (by omega)]

theorem Solves.poly (hN : 1 ≤ N) (tf : ℝ) (s : ℕ) {Θ : ℝ[X]} (hΘ : Θ.natDegree ≤ N) :
    Solves S N tf s (fun k => Θ.eval (nodeTime S N tf k)) fun k => Θ.derivative.eval (nodeTime S N tf k) :=
  ⟨Θ, hΘ, fun l hl => by beta_reduce; rw [nodeTime_eq hN tf hl], fun j hj => by beta_reduce; rw [nodeTime_eq hN tf hj.1]⟩

/-- **C146.** If states and controls satisfy the differential equation of the system, every polynomial motion along the path of degree at most `N` completes
them to a feasible point. -/
theorem motion_free {sys : Sys ℝ} {o : Opts ℝ} {tf : ℝ} {p v : ℕ → ℝ} (hS : 1 ≤ S) (hN : 1 ≤ N) (h : 0 < tf) (ho : o.scaling.getD false = false)
    (hpath : (pathFn sys o).isSome) (hv : ∀ s < S, ∀ i < nx, Solves S N tf s (fun k => px nx v k i) fun k => sys.f (px nx v k) (pu nx nu (S * N + 1) v k) i)
    {Θ : ℝ[X]} (hΘ : Θ.natDegree ≤ N) :
    ∃ v' q, nlp nx nu S N (scheme N) sys o tf p v' = some q ∧ (∀ r < q.n, q.g r = 0) ∧
      ∀ k ≤ S * N, px nx v' k = px nx v k ∧ pu nx nu (S * N + 1) v' k = pu nx nu (S * N + 1) v k ∧
        th nx v' k = Θ.eval (nodeTime S N tf k) ∧ om nx v' k = Θ.derivative.eval (nodeTime S N tf k) := by
  set v' := setMotion nx nu (S * N + 1) v (fun k => Θ.eval (nodeTime S N tf k)) (fun k => Θ.derivative.eval (nodeTime S N tf k))
    (fun k => Θ.derivative.derivative.eval (nodeTime S N tf k)) with hv'
  have hr := fun k (hk : k ≤ S * N) => setMotion_reads (nx := nx) (nu := nu) (S * N + 1) v (fun k => Θ.eval (nodeTime S N tf k))
    (fun k => Θ.derivative.eval (nodeTime S N tf k)) (fun k => Θ.derivative.derivative.eval (nodeTime S N tf k)) (show k < S * N + 1 by omega)
  obtain ⟨pth, hp⟩ := Option.isSome_iff_exists.1 hpath
  obtain ⟨q, hq⟩ : ∃ q, nlp nx nu S N (scheme N) sys o tf p v' = some q := by unfold nlp; rw [hp]; exact ⟨_, rfl⟩
  refine ⟨v', q, hq, (program_meaning hS hN h ho hq).2.2.2 fun s hs => ⟨fun i hi => ?_, ?_, ?_⟩, fun k hk => ?_⟩
  · refine (hv s hs i hi).congr hs (fun k hk => ?_) fun k hk => ?_
    · rw [hv', (hr k hk).1]
    · rw [hv', (hr k hk).1, (hr k hk).2.2.2.1]
  · refine (Solves.poly hN tf s hΘ).congr hs (fun k hk => ?_) fun k hk => ?_
    · rw [hv', (hr k hk).2.1]
    · rw [hv', (hr k hk).2.2.1]
  · refine (Solves.poly hN tf s (Θ := Θ.derivative) ((natDegree_derivative_le Θ).trans (by omega))).congr hs (fun k hk => ?_) fun k hk => ?_
    · rw [hv', (hr k hk).2.2.1]
    · rw [hv', (hr k hk).2.2.2.2]
  · obtain ⟨e1, e2, e3, e4, -⟩ := hr k hk
    exact ⟨e1, e4, e2, e3⟩

/-- Motion with constant velocity: every position and velocity along the path is an initial one. -/
example {sys : Sys ℝ} {o : Opts ℝ} {tf : ℝ} {p v : ℕ → ℝ} (hS : 1 ≤ S) (hN : 1 ≤ N) (h : 0 < tf) (ho : o.scaling.getD false = false)
    (hpath : (pathFn sys o).isSome) (hv : ∀ s < S, ∀ i < nx, Solves S N tf s (fun k => px nx v k i) fun k => sys.f (px nx v k) (pu nx nu (S * N + 1) v k) i)
    (θ0 ω0 : ℝ) : ∃ v' q, nlp nx nu S N (scheme N) sys o tf p v' = some q ∧ (∀ r < q.n, q.g r = 0) ∧ px nx v' (S * N) = px nx v (S * N) ∧
      th nx v' (S * N) = θ0 ∧ om nx v' (S * N) = ω0 := by
  obtain ⟨v', q, h1, h2, h3⟩ := motion_free (p := p) hS hN h ho hpath hv (Θ := C ω0 * X + C θ0) ((natDegree_linear_le).trans hN)
  obtain ⟨a1, -, a3, a4⟩ := h3 (S * N) le_rfl
  have ht : nodeTime S N tf (S * N) = 0 := by
    have := nodeTime_eq (S := S) hN tf (s := S) (Nat.zero_le N)
    rw [Nat.add_zero] at this
    rw [this, segTime_eq, (points_ends hN).1]
    have : (S : ℝ) ≠ 0 := by exact_mod_cast (show S ≠ 0 by omega)
    field_simp; ring
  refine ⟨v', q, h1, h2, a1, ?_, ?_⟩
  · rw [a3, ht]; simp
  · rw [a4]; simp

/-- **C146.** On the first segment the velocity of a feasible point is the derivative of the path variable, between the nodes too. -/
theorem first_velocity {sys : Sys ℝ} {o : Opts ℝ} {tf : ℝ} {p v : ℕ → ℝ} {q : Nmpc.Nlp ℝ} (hS : 1 ≤ S) (hN : 1 ≤ N) (h : 0 < tf)
    (ho : o.scaling.getD false = false) (hq : nlp nx nu S N (scheme N) sys o tf p v = some q) (hz : ∀ r < q.n, q.g r = 0) :
    ∃ Θ : ℝ[X], Θ.natDegree ≤ N ∧ ∀ l ≤ N, Θ.eval (segTime S N 0 tf (S - 1) l) = th nx v ((S - 1) * N + l) ∧
      Θ.derivative.eval (segTime S N 0 tf (S - 1) l) = om nx v ((S - 1) * N + l) ∧
      Θ.derivative.derivative.eval (segTime S N 0 tf (S - 1) l) = ac nx nu (S * N + 1) v ((S - 1) * N + l) := by
  obtain ⟨-, ⟨Θ, hΘ, a1, a2⟩, ⟨Ω, hΩ, b1, b2⟩⟩ := (program_meaning hS hN h ho hq).2.2.1 hz (S - 1) (by omega)
  have hall : ∀ l ≤ N, asked S N (S - 1) l := fun l hl => ⟨hl, Or.inr (by omega)⟩
  have ha := scale_pos (aug nx nu S N) hS h
  have e : Θ.derivative = Ω := by
    by_contra hne
    have hdeg : (Θ.derivative - Ω).natDegree ≤ N := (natDegree_sub_le _ _).trans (max_le ((natDegree_derivative_le Θ).trans (by omega)) hΩ)
    have := card_roots' (Θ.derivative - Ω)
    have hinj : Set.InjOn (segTime S N 0 tf (S - 1)) (Finset.range (N + 1) : Set ℕ) := by
      intro l hl m hm hlm
      have hl := Finset.mem_range.1 (Finset.mem_coe.1 hl)
      have hm := Finset.mem_range.1 (Finset.mem_coe.1 hm)
      rw [segTime_eq, segTime_eq] at hlm
      by_contra hne
      have hp : points N l = points N m := by
        have := add_right_cancel hlm
        exact mul_left_cancel₀ ha.ne' this
      rcases Nat.lt_or_gt_of_ne hne with hlt | hlt
      · exact absurd hp (points_lt hN hlt (by omega)).ne'
      · exact absurd hp (points_lt hN hlt (by omega)).ne
    have hsub : ((Finset.range (N + 1)).image (segTime S N 0 tf (S - 1))) ⊆ (Θ.derivative - Ω).roots.toFinset := by
      intro t ht
      obtain ⟨l, hl, rfl⟩ := Finset.mem_image.1 ht
      have hl := Finset.mem_range.1 hl
      rw [Multiset.mem_toFinset, mem_roots (sub_ne_zero.2 hne)]
      show eval _ _ = 0
      rw [eval_sub, a2 l (hall l (by omega)), b1 l (by omega), sub_self]
    have hc := Finset.card_le_card hsub
    rw [Finset.card_image_of_injOn hinj, Finset.card_range] at hc
    have := Multiset.toFinset_card_le (Θ.derivative - Ω).roots
    omega
  refine ⟨Θ, hΘ, fun l hl => ⟨a1 l hl, a2 l (hall l hl), ?_⟩⟩
  rw [e]; exact b2 l (hall l hl)

/-! ### C147: states that cannot be started from -/

/-- **C147 (negative).** Since the differential equation is asked for at the initial time too, feasible points exist only for some initial states: if linear
combinations `M x` of the states obey `d/dt (M x) = A (M x)` with `A` invertible, every feasible point has `M x = 0` on the whole first segment. -/
theorem modes_vanish {sys : Sys ℝ} {o : Opts ℝ} {tf : ℝ} {p v : ℕ → ℝ} {q : Nmpc.Nlp ℝ} (hS : 1 ≤ S) (hN : 1 ≤ N) (h : 0 < tf)
    (ho : o.scaling.getD false = false) {m : ℕ} (A : Matrix (Fin m) (Fin m) ℝ) (hA : A.det ≠ 0) (M : Fin m → ℕ → ℝ)
    (hM : ∀ x u c, ∑ i ∈ Finset.range nx, M c i * sys.f x u i = ∑ e, A c e * ∑ i ∈ Finset.range nx, M e i * x i)
    (hq : nlp nx nu S N (scheme N) sys o tf p v = some q) (hz : ∀ r < q.n, q.g r = 0) (c : Fin m) {l : ℕ} (hl : l ≤ N) :
    ∑ i ∈ Finset.range nx, M c i * px nx v ((S - 1) * N + l) i = 0 := by
  obtain ⟨pth, -, -, h2, -, h4⟩ := nlp_ok hq
  rw [h2, h4] at hz
  have hsum : ∀ (c : Fin m) (y : ℕ → ℝ), ∑ i ∈ Finset.range (nx + 2), (if i < nx then M c i else 0) * y i = ∑ i ∈ Finset.range nx, M c i * y i := fun c y => by
    rw [Finset.sum_range_succ, Finset.sum_range_succ, if_neg (by omega), if_neg (by omega), zero_mul, zero_mul, add_zero, add_zero]
    exact Finset.sum_congr rfl fun i hi => by rw [if_pos (Finset.mem_range.1 hi)]
  have key := cas_modes (aug nx nu S N) (ode nx nu S N sys o) v (fun i => v ((aug nx nu S N).VARX + i)) (fun _ => 0) hS hN h A hA
    (fun c i => if i < nx then M c i else 0) ?_ hz c l hl
  · have := hsum c fun i => v (((S - 1) * N + l) * (nx + 2) + i)
    rw [show (∑ i ∈ Finset.range nx, M c i * px nx v ((S - 1) * N + l) i) = ∑ i ∈ Finset.range nx, M c i * v (((S - 1) * N + l) * (nx + 2) + i) from
      Finset.sum_congr rfl fun i hi => by unfold px part; rw [if_pos (Finset.mem_range.1 hi)], ← this]
    exact key
  · intro z c
    have e1 : ode nx nu S N sys o z = augF nx nu sys (zx _ z) (zu _ z) := by
      unfold ode; rw [show o.scale = false from ho]; rfl
    show ∑ i ∈ Finset.range (nx + 2), _ = ∑ e, A c e * ∑ i ∈ Finset.range (nx + 2), _
    rw [hsum, e1]
    simp only [hsum]
    have e2 : ∀ i ∈ Finset.range nx, M c i * augF nx nu sys (zx _ z) (zu _ z) i = M c i * sys.f (cut nx (zx _ z)) (cut nu (zu _ z)) i := fun i hi => by
      unfold augF; rw [if_pos (Finset.mem_range.1 hi)]
    rw [Finset.sum_congr rfl e2, hM]
    refine Finset.sum_congr rfl fun e _ => ?_
    congr 1
    refine Finset.sum_congr rfl fun i hi => ?_
    have hi := Finset.mem_range.1 hi
    congr 1
    unfold cut zx
    rw [if_pos hi]
    have h1 : i < (aug nx nu S N).NX := show i < nx + 2 by omega
    have h2 : i < (aug nx nu S N).M := by unfold Dims.M; omega
    rw [dif_pos h1, dif_pos h2]

end PolyMPC.Nmpf
