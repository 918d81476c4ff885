import Verif.Props.PsOdeAccuracy
import Verif.Props.MpcSqp
import Verif.Props.NmpcIvp

/-!
# Accuracy of the predictions of the controllers (C183, C184)
-/

set_option linter.unusedSectionVars false

namespace PolyMPC.Nmpc
open Polynomial Set Spec CasCheb Ocp GenOcp Colloc

/-- **C183.** The constraints of `nmpc` predict the response to every control signal, smooth on each segment, that has the values of the program at the collocation nodes, up to an error of order `N` in the length of the segments. -/
theorem prediction_accurate {d : Dims} {sys : Sys ℝ} {o : Opts ℝ} {ref : ℕ → ℝ} {tf : ℝ} {var : ℕ → ℝ} {p : Nlp ℝ} (hS : 1 ≤ d.S) (hN : 1 ≤ d.N) (h : 0 < tf)
    (ho : o.scaling.getD false = false) (hp : nlp d (scheme d.N) sys o ref tf var = some p) (hr : ∀ r < p.n, p.g r = 0)
    {Ω : Set (ℕ → ℝ)} {L M : ℝ} (hL0 : 0 ≤ L) (hM0 : 0 ≤ M) (hf : LipschitzIn d.NX Ω sys.f L) (hz : tf / d.S * growth d.N * L ≤ 1 / 2)
    {w : ℕ → ℝ → ℕ → ℝ} (hw : ∀ s < d.S, ∀ j < d.N, w s (segTime d.S d.N 0 tf s j) = uAt d var (s * d.N + j)) {y : ℕ → ℝ → ℝ}
    (hy : ∀ s < d.S, SmoothSolution d.NX d.N y (fun i t => sys.f (fun j => y j t) (w s t) i) (segTime d.S d.N 0 tf s d.N) (segTime d.S d.N 0 tf s 0) M)
    (h0 : ∀ i < d.NX, y i 0 = xAt d var (d.S * d.N) i) (hm : ∀ k ≤ d.S * d.N, xAt d var k ∈ Ω) (hm' : ∀ t ∈ Icc 0 tf, (fun j => y j t) ∈ Ω) :
    ∀ s < d.S, ∀ l ≤ d.N, ∀ i < d.NX, |xAt d var (s * d.N + l) i - y i (segTime d.S d.N 0 tf s l)| ≤ errorBound d.N L M tf (tf / d.S) 0 0 := by
  have hc : Collocates d.S d.N d.NX sys.f tf (xAt d var) (uAt d var) := (program_meaning hS hN h ho hp).2.2.1 hr
  refine collocates_accurate hS hN h hL0 hM0 le_rfl hf hz hc (w := w) hw hm hm' (fun s hs => ?_) (fun i hi => by rw [h0 i hi, sub_self, abs_zero])
  have := hy s hs
  rw [segStart_eq hN] at this
  have e : segTime d.S d.N 0 tf s 0 = segStart d.S 0 tf s + tf / d.S := by
    rw [segTime_eq, (points_ends hN).1]; unfold segStart; ring
  rw [e] at this
  exact this

/-- **C184.** With dynamics that are Lipschitz continuous in the state, for all controls, and short segments, every initial state and every choice of controls has exactly one trajectory that satisfies the constraints of `nmpc`. -/
theorem ivp_lipschitz {d : Dims} {sys : Sys ℝ} {o : Opts ℝ} (ref : ℕ → ℝ) {tf : ℝ} (hS : 1 ≤ d.S) (hN : 1 ≤ d.N) (h : 0 < tf) (ho : o.scaling.getD false = false)
    (hy : sys.ny = d.NX ∨ sys.ny = 1) {L : ℝ} (hL0 : 0 ≤ L) (hf : LipschitzIn d.NX univ sys.f L) (hz : tf / d.S * growth d.N * L < 1) :
    (∀ x0 u : ℕ → ℝ, ∃ var p, nlp d (scheme d.N) sys o ref tf var = some p ∧ (∀ r < p.n, p.g r = 0) ∧
        (∀ i < d.NX, xAt d var (d.S * d.N) i = x0 i) ∧ ∀ c < d.VARU, var (d.VARX + c) = u c) ∧
      ∀ var var' p p', nlp d (scheme d.N) sys o ref tf var = some p → nlp d (scheme d.N) sys o ref tf var' = some p' →
        (∀ r < p.n, p.g r = 0) → (∀ r < p'.n, p'.g r = 0) → (∀ i < d.NX, xAt d var (d.S * d.N) i = xAt d var' (d.S * d.N) i) →
        (∀ c < d.VARU, var (d.VARX + c) = var' (d.VARX + c)) → ∀ r < d.VARX, var r = var' r := by
  constructor
  · intro x0 u
    obtain ⟨x, hx, hx0⟩ := collocates_exists hS hN h hL0 hf hz x0 fun k => part d.NU u (k * d.NU)
    let v := PsOde.pack d x fun k => part d.NU u (k * d.NU)
    have hpart : ∀ k, part d.NU (part d.NU u (k * d.NU)) 0 = part d.NU u (k * d.NU) := fun k => by
      funext i; unfold part
      by_cases hi : i < d.NU
      · simp [hi]
      · rw [if_neg hi, if_neg hi]
    obtain ⟨p, hp⟩ : ∃ p, nlp d (scheme d.N) sys o ref tf v = some p := by unfold nlp; rw [if_pos ((sizes_off ho).2 hy)]; exact ⟨_, rfl⟩
    have hxa : ∀ k ≤ d.S * d.N, ∀ i < d.NX, xAt d v k i = x k i := fun k hk i hi => by
      rw [PsOde.xAt_pack _ _ (by unfold Dims.NN; omega)]
      unfold part; rw [if_pos hi, Nat.zero_add]
    refine ⟨v, p, hp, ?_, fun i hi => ?_, fun c hc => ?_⟩
    · exact (program_meaning hS hN h ho hp).2.2.2 (PsOde.collocates_part hf hxa (fun k _ => by rw [PsOde.uAt_pack, hpart]) hx)
    · rw [hxa _ le_rfl i hi, hx0 i hi]
    · show PsOde.pack d x _ (d.VARX + c) = u c
      unfold PsOde.pack
      rw [if_neg (by omega), Nat.add_sub_cancel_left]
      have hU : 0 < d.NU := by
        rcases Nat.eq_zero_or_pos d.NU with h | h
        · rw [← PsOde.varu_comm, h, Nat.mul_zero] at hc; omega
        · exact h
      show part d.NU u (c / d.NU * d.NU) (c % d.NU) = u c
      unfold part
      rw [if_pos (Nat.mod_lt _ hU), Nat.div_add_mod']
  · intro v v' p p' hp hp' hr hr' hx0 hu r hr0
    have c1 : Collocates d.S d.N d.NX sys.f tf (xAt d v) (uAt d v) := (program_meaning hS hN h ho hp).2.2.1 hr
    have c2 : Collocates d.S d.N d.NX sys.f tf (xAt d v') (uAt d v') := (program_meaning hS hN h ho hp').2.2.1 hr'
    have hX : 0 < d.NX := by
      rcases Nat.eq_zero_or_pos d.NX with h | h
      · rw [← PsOde.varx_comm, h, Nat.mul_zero] at hr0; omega
      · exact h
    have hk : r / d.NX < d.NN := (Nat.div_lt_iff_lt_mul hX).2 (by rw [PsOde.varx_comm]; exact hr0)
    have hue : ∀ k ≤ d.S * d.N, uAt d v k = uAt d v' k := fun k hk => by
      unfold uAt part
      funext i
      by_cases hi : i < d.NU
      · rw [if_pos hi, if_pos hi]
        rw [PsOde.varx_comm, Nat.add_assoc]
        refine hu _ ?_
        rw [← PsOde.varu_comm]
        unfold Dims.NN
        nlinarith [Nat.mul_le_mul_right d.NU hk]
      · rw [if_neg hi, if_neg hi]
    have := collocates_unique hS hN h hL0 hf hz c1 (PsOde.collocates_congr c2 fun k hk => (hue k hk).symm) (fun _ _ => mem_univ _) (fun _ _ => mem_univ _) hx0
      (r / d.NX) (by unfold Dims.NN at hk; omega) (r % d.NX) (Nat.mod_lt _ hX)
    unfold xAt part at this
    rw [if_pos (Nat.mod_lt _ hX), if_pos (Nat.mod_lt _ hX), Nat.div_add_mod'] at this
    exact this

end PolyMPC.Nmpc

namespace PolyMPC.MpcSqp
open Ocp Mpc Spec Colloc Set
open Polynomial hiding ext

variable {d : Dims} {prec : Sqp.Precond ℝ d.VAR (d.NEQ + d.NINEQ)} {qps : Sqp.QPSolver ℝ d.VAR (d.NEQ + d.NINEQ)}

/-- State, control and parameters as the dynamics receives them. -/
def joint (d : Dims) (x u p : ℕ → ℝ) : Fin d.M → ℝ := fun i =>
  if i.val < d.NX then x i else if i.val < d.NX + d.NU then u (i - d.NX) else p (i - d.NX - d.NU)

/-- The right-hand side of the dynamics. -/
def rhs (cb : Cbs d ℝ) (p : ℕ → ℝ) (t : ℝ) (x u : ℕ → ℝ) (i : ℕ) : ℝ := cb.dyn (joint d x u p) t (fun _ => 0) i

/-- Entries `0, 1, …` of state, control and parameters at node `k`. -/
def stateAt (w : Wrap d ℝ) (k i : ℕ) : ℝ := w.x ((d.S * d.N - k) * d.NX + i)
def controlAt (w : Wrap d ℝ) (k i : ℕ) : ℝ := w.x ((d.S * d.N - k) * d.NU + d.VARX + i)
def paramAt (w : Wrap d ℝ) (i : ℕ) : ℝ := w.x (d.VARX + d.VARU + i)

theorem point_joint (w : Wrap d ℝ) (k : ℕ) : point w k = joint d (stateAt w k) (controlAt w k) (paramAt w) := by
  funext i
  unfold point node joint stateAt controlAt paramAt
  rfl

/-- They are what the getters return. -/
theorem at_getters (w : Wrap d ℝ) (k : Fin (d.S * d.N + 1)) :
    (∀ i : Fin d.NX, solutionXAt w k i = some (stateAt w k i)) ∧ (∀ i : Fin d.NU, solutionUAt w k i = some (controlAt w k i)) ∧ ∀ i : Fin d.NP, solutionP w i = paramAt w i := by
  obtain ⟨h1, h2, h3⟩ := point_getters w k
  refine ⟨fun i => ?_, fun i => ?_, fun i => ?_⟩
  · rw [h1, point_joint]; unfold joint; rw [if_pos i.2]
  · rw [h2, point_joint]; unfold joint
    rw [if_neg (by show ¬ d.NX + i.val < d.NX; omega), if_pos (by show d.NX + i.val < d.NX + d.NU; omega)]
    show some (controlAt w k (d.NX + i - d.NX)) = _
    rw [Nat.add_sub_cancel_left]
  · rw [h3 i, point_joint]; unfold joint
    rw [if_neg (by show ¬ d.NX + d.NU + i.val < d.NX; omega), if_neg (by show ¬ d.NX + d.NU + i.val < d.NX + d.NU; omega)]
    show paramAt w (d.NX + d.NU + i - d.NX - d.NU) = _
    congr 1; omega

/-- Times of the nodes. -/
theorem grid_segTime (hN : 1 ≤ d.N) {w : Wrap d ℝ} (hw : Reachable (chebApprox d.N) w) {σ s l : ℕ} (h : s + σ + 1 = d.S) (hl : l ≤ d.N) :
    w.grid (σ * d.N + l) = segTime d.S d.N w.ocp.tStart w.ocp.tStop s (d.N - l) := by
  have hsy := reachable_synced hw
  obtain ⟨o, ho⟩ := hsy.time
  have idx : d.S * d.N - (σ * d.N + l) = s * d.N + (d.N - l) := by
    rw [← h]
    have : (s + σ + 1) * d.N = s * d.N + σ * d.N + d.N := by ring
    omega
  rw [hsy.grid, idx, ho, time_grid d _ (cheb_good hN) o _ _ (by omega) (by omega), CasCheb.segTime_eq, ← (CasCheb.scheme_eq (N := d.N) (by omega : d.N - l ≤ d.N) (by omega : d.N - l ≤ d.N)).2.1]
  show _ - (1 - CasCheb.points d.N (d.N - l)) * _ = _
  ring

/-- **C183.** A solve that ends with `SOLVED` predicts the plant. Let the dynamics be Lipschitz continuous in the state, on a set that contains the states at the nodes and those of the plant, and let the segments be short.
Apply any control signal, smooth on each segment, that has the returned values at the nodes of the segment after its first. The states that `solution_x_at` returns, at the nodes and between them, are those of the plant up to
`errorBound`, with the distance `e0` of the initial states and `eps_prim`, in the time scale of the segments, for the residuals. -/
theorem solved_accurate [NeZero d.VAR] {cb : Cbs d ℝ} (hN : 1 ≤ d.N) (hS : 1 ≤ d.S)
    (hf : ∀ z t old old', ∀ i < d.NX, cb.dyn z t old i = cb.dyn z t old' i) (hg : ∀ z t old old', ∀ i < d.NG, cb.ineq z t old i = cb.ineq z t old' i)
    {w : Wrap d ℝ} (hw : Reachable (chebApprox d.N) w) (ht : w.ocp.tStart < w.ocp.tStop) {sc : Scratch d} {env : Sqp.Env ℝ d.VAR d.NEQ d.NINEQ prec qps}
    (hp : env.prob = problem (chebApprox d.N) cb w.ocp sc) (hb : env.bd = bounds w) {st r : Sqp.State ℝ d.VAR d.NEQ d.NINEQ prec qps}
    (h : Sqp.solve env (start w st) = some r) (hs : r.status = .SOLVED)
    {Ω : Set (ℕ → ℝ)} {L M e0 : ℝ} (hL0 : 0 ≤ L) (hM0 : 0 ≤ M) (he0 : 0 ≤ e0)
    (hl : ∀ t ∈ Icc w.ocp.tStart w.ocp.tStop, LipschitzIn d.NX Ω (rhs cb (paramAt (finish w r)) t) L)
    (hz : (w.ocp.tStop - w.ocp.tStart) / d.S * growth d.N * L ≤ 1 / 2)
    {ν : ℕ → ℝ → ℕ → ℝ} (hν : ∀ σ < d.S, ∀ l ≤ d.N, 0 < l → ν σ (w.grid (σ * d.N + l)) = controlAt (finish w r) (σ * d.N + l)) {y : ℕ → ℝ → ℝ}
    (hy : ∀ σ < d.S, SmoothSolution d.NX d.N y (fun i t => rhs cb (paramAt (finish w r)) t (fun j => y j t) (ν σ t) i) (w.grid (σ * d.N)) (w.grid (σ * d.N + d.N)) M)
    (h0 : ∀ i < d.NX, |stateAt (finish w r) 0 i - y i w.ocp.tStart| ≤ e0)
    (hm : ∀ k ≤ d.S * d.N, stateAt (finish w r) k ∈ Ω) (hm' : ∀ t ∈ Icc w.ocp.tStart w.ocp.tStop, (fun j => y j t) ∈ Ω) :
    (∀ k ≤ d.S * d.N, ∀ i < d.NX, |stateAt (finish w r) k i - y i (w.grid k)|
      ≤ errorBound d.N L M (w.ocp.tStop - w.ocp.tStart) ((w.ocp.tStop - w.ocp.tStart) / d.S) (2 * d.S * env.cfg.epsPrim / (w.ocp.tStop - w.ocp.tStart)) e0) ∧
    (d.S < 2 ^ 31 → w.ocp.tStart = 0 → ∀ t ∈ Icc w.ocp.tStart w.ocp.tStop, ∀ i : Fin d.NX, ∃ v, solutionXAtTime (finish w r) t i = some v ∧ |v - y i t|
      ≤ errorBound d.N L M (w.ocp.tStop - w.ocp.tStart) ((w.ocp.tStop - w.ocp.tStart) / d.S) (2 * d.S * env.cfg.epsPrim / (w.ocp.tStop - w.ocp.tStart)) e0) := by
  obtain ⟨hQ, -⟩ := solved_trajectory hN hS hf hg hw ht hp hb h hs
  set t0 := w.ocp.tStart with ht0
  set tf := w.ocp.tStop with htf
  have hSr : (0 : ℝ) < d.S := by exact_mod_cast hS
  have hlen : 0 < tf - t0 := sub_pos.2 ht
  have hH : 0 < (tf - t0) / d.S := by positivity
  set ε := 2 * d.S * env.cfg.epsPrim / (tf - t0) with hε
  rcases Nat.eq_zero_or_pos d.NX with hX | hX
  · exact ⟨fun k _ i hi => absurd hi (by omega), fun _ _ t _ i => absurd i.2 (by omega)⟩
  -- chronological segment σ is segment S - 1 - σ
  choose! Q' q1 q2 q3 q4 using hQ
  let Q : ℕ → ℕ → ℝ[X] := fun s i => if hi : i < d.NX then Q' (d.S - 1 - s) ⟨i, hi⟩ else 0
  have hQd : ∀ s (i : Fin d.NX), Q s i = Q' (d.S - 1 - s) i := fun s i => dif_pos i.2
  have hk : ∀ s < d.S, ∀ l ≤ d.N, d.S * d.N - (s * d.N + l) = (d.S - 1 - s) * d.N + (d.N - l) := by
    intro s hs l hl
    obtain ⟨σ, hσ⟩ : ∃ σ, s + σ + 1 = d.S := ⟨d.S - 1 - s, by omega⟩
    rw [← hσ, show s + σ + 1 - 1 - s = σ by omega]
    have : (s + σ + 1) * d.N = s * d.N + σ * d.N + d.N := by ring
    omega
  have htm : ∀ s < d.S, ∀ l ≤ d.N, w.grid ((d.S - 1 - s) * d.N + (d.N - l)) = segTime d.S d.N t0 tf s l := by
    intro s hs l hl
    rw [grid_segTime hN hw (by omega : s + (d.S - 1 - s) + 1 = d.S) (by omega), show d.N - (d.N - l) = l by omega]
  have hkle : ∀ s < d.S, ∀ l ≤ d.N, s * d.N + l ≤ d.S * d.N := by
    intro s hs l hl
    have : (s + 1) * d.N ≤ d.S * d.N := Nat.mul_le_mul_right _ hs
    rw [Nat.add_mul, Nat.one_mul] at this
    omega
  have hval : ∀ s < d.S, ∀ l ≤ d.N, ∀ i < d.NX, (Q s i).eval (segTime d.S d.N t0 tf s l) = stateAt (finish w r) (d.S * d.N - (s * d.N + l)) i := by
    intro s hs l hl i hi
    have h1 := q3 (d.S - 1 - s) (by omega) ⟨i, hi⟩ (d.N - l) (by omega)
    have h2 := (at_getters (finish w r) ⟨(d.S - 1 - s) * d.N + (d.N - l), by have := hkle (d.S - 1 - s) (by omega) (d.N - l) (by omega); omega⟩).1 ⟨i, hi⟩
    rw [hQd s ⟨i, hi⟩, ← htm s hs l hl, hk s hs l hl]
    exact Option.some.inj (h1.symm.trans h2)
  have hin : ∀ s < d.S, ∀ t ∈ Icc (segStart d.S t0 tf s) (segStart d.S t0 tf s + (tf - t0) / d.S), t ∈ Icc t0 tf := by
    intro s hs t hts
    have hs' : (s : ℝ) + 1 ≤ d.S := by exact_mod_cast hs
    have hs0 : (0 : ℝ) ≤ s := Nat.cast_nonneg s
    have hTS : d.S * ((tf - t0) / d.S) = tf - t0 := by field_simp
    have hst : segStart d.S t0 tf s = tf - (s + 1) * ((tf - t0) / d.S) := rfl
    rw [hst] at hts
    constructor <;> nlinarith [hts.1, hts.2]
  have key := horizon_cont (n := d.NX) (S := d.S) (N := d.N) (t0 := t0) (tf := tf) (x := fun k i => stateAt (finish w r) (d.S * d.N - k) i) (y := y)
    (r := fun s i t => rhs cb (paramAt (finish w r)) t (fun j => y j t) (ν (d.S - 1 - s) t) i) (L := L) (M := M) (ε := ε) (e0 := e0) hS hN ht hL0 ?_ he0 hM0 hz ?_ ?_ (Q := Q) ?_
  · constructor
    · intro k hk0 i hi
      obtain ⟨s, hs, l, hl, e⟩ := PsOde.node_pair (d := d) hN (k := d.S * d.N - k) (by omega) hS
      have h1 := key s hs i hi _ (seg_mem (N := d.N) hS ht s l)
      have h2 := hval s hs l hl i hi
      rw [← e, show d.S * d.N - (d.S * d.N - k) = k by omega] at h2
      have h3 := htm s hs l hl
      rw [← hk s hs l hl, ← e, show d.S * d.N - (d.S * d.N - k) = k by omega] at h3
      rw [h2, ← h3] at h1
      exact h1
    · intro h31 hz0 t htt i
      obtain ⟨σ, hσ⟩ : ∃ σ, InSegment d t0 tf σ t := by
        rcases eq_or_lt_of_le htt.2 with he | hlt
        · refine ⟨d.S - 1, by omega, ?_, Or.inr ⟨by omega, htt.2⟩⟩
          rw [Nat.cast_sub hS]
          have hTS : d.S * ((tf - t0) / d.S) = tf - t0 := by field_simp
          push_cast
          nlinarith
        · have hq : 0 ≤ (t - t0) / ((tf - t0) / d.S) := div_nonneg (by linarith [htt.1]) hH.le
          have f1 := Nat.floor_le hq
          have f2 := Nat.lt_floor_add_one ((t - t0) / ((tf - t0) / d.S))
          rw [le_div_iff₀ hH] at f1
          rw [div_lt_iff₀ hH] at f2
          refine ⟨⌊(t - t0) / ((tf - t0) / d.S)⌋₊, ?_, by linarith, Or.inl (by linarith)⟩
          rw [Nat.floor_lt hq, div_lt_iff₀ hH]
          have hTS : d.S * ((tf - t0) / d.S) = tf - t0 := by field_simp
          linarith
      have hσS := hσ.1
      refine ⟨_, q2 σ hσS i h31 hz0 t hσ, ?_⟩
      have := key (d.S - 1 - σ) (by omega) i i.2 t ?_
      · rw [hQd, show d.S - 1 - (d.S - 1 - σ) = σ by omega] at this
        exact this
      · have hst : segStart d.S t0 tf (d.S - 1 - σ) = t0 + σ * ((tf - t0) / d.S) := by
          unfold segStart
          have : ((d.S - 1 - σ : ℕ) : ℝ) = d.S - 1 - σ := by rw [Nat.cast_sub (by omega), Nat.cast_sub hS]; push_cast; ring
          rw [this]
          field_simp
          ring
        rw [hst]
        refine ⟨hσ.2.1, ?_⟩
        rcases hσ.2.2 with h' | ⟨h', h''⟩
        · linarith
        · have : (d.S : ℝ) = σ + 1 := by rw [← h']; push_cast; ring
          have hTS : d.S * ((tf - t0) / d.S) = tf - t0 := by field_simp
          nlinarith
  · -- eps_prim is not negative
    have h1 := q4 0 (by omega) ⟨0, hX⟩ 0 (Nat.zero_le _) (Or.inr rfl)
    have h2 : 0 ≤ env.cfg.epsPrim := le_trans (by positivity) h1
    positivity
  · intro s hs
    have := hy (d.S - 1 - s) (by omega)
    have g1 := htm s hs d.N le_rfl
    have g2 := htm s hs 0 (Nat.zero_le _)
    rw [Nat.sub_self, Nat.add_zero, segStart_eq hN] at g1
    rw [Nat.sub_zero] at g2
    have e : segTime d.S d.N t0 tf s 0 = segStart d.S t0 tf s + (tf - t0) / d.S := by
      rw [CasCheb.segTime_eq, (CasCheb.points_ends hN).1]; unfold segStart; ring
    rw [g1, g2, e] at this
    exact this
  · intro i hi
    show |stateAt (finish w r) (d.S * d.N - d.S * d.N) i - y i t0| ≤ e0
    rw [Nat.sub_self]
    exact h0 i hi
  · intro s hs i hi
    refine ⟨by rw [hQd s ⟨i, hi⟩]; exact q1 _ (by omega) _, fun l hl => hval s hs l hl i hi, fun j hj B hB => ?_⟩
    have hj0 : 0 < d.N - j := by omega
    have hr := q4 (d.S - 1 - s) (by omega) ⟨i, hi⟩ (d.N - j) (by omega) (Or.inl hj0)
    have htt := hin s hs _ (seg_mem (N := d.N) hS ht s j)
    have hlip := hl _ htt _ (hm (d.S * d.N - (s * d.N + j)) (by omega)) _ (hm' _ htt) (controlAt (finish w r) (d.S * d.N - (s * d.N + j))) B hB i hi
    have hν' := hν (d.S - 1 - s) (by omega) (d.N - j) (by omega) hj0
    rw [htm s hs j hj.le] at hr hν'
    rw [← hk s hs j hj.le] at hr hν'
    rw [point_joint] at hr
    rw [hQd s ⟨i, hi⟩]
    show |_ - rhs cb (paramAt (finish w r)) (segTime d.S d.N t0 tf s j) (fun i => y i (segTime d.S d.N t0 tf s j)) (ν (d.S - 1 - s) (segTime d.S d.N t0 tf s j)) i| ≤ _
    rw [hν']
    change (tf - t0) / (2 * d.S) * |_ - rhs cb (paramAt (finish w r)) _ (stateAt (finish w r) (d.S * d.N - (s * d.N + j))) (controlAt (finish w r) (d.S * d.N - (s * d.N + j))) i| ≤ _ at hr
    have hr' : |(Q' (d.S - 1 - s) ⟨i, hi⟩).derivative.eval (segTime d.S d.N t0 tf s j) -
        rhs cb (paramAt (finish w r)) (segTime d.S d.N t0 tf s j) (stateAt (finish w r) (d.S * d.N - (s * d.N + j))) (controlAt (finish w r) (d.S * d.N - (s * d.N + j))) i| ≤ ε := by
      rw [hε, le_div_iff₀ hlen]
      rw [div_mul_eq_mul_div, div_le_iff₀ (by positivity)] at hr
      linarith
    have := abs_add_le _ _ |>.trans (add_le_add hr' hlip)
    rw [sub_add_sub_cancel] at this
    linarith

/-- **C183.** After `initial_conditions(x0)` and any other calls, the prediction for the plant that starts at `x0`: the initial error is at most `eps_prim`. -/
theorem predicts_plant [NeZero d.VAR] {cb : Cbs d ℝ} (hN : 1 ≤ d.N) (hS : 1 ≤ d.S)
    (hf : ∀ z t old old', ∀ i < d.NX, cb.dyn z t old i = cb.dyn z t old' i) (hg : ∀ z t old old', ∀ i < d.NG, cb.ineq z t old i = cb.ineq z t old' i)
    {w0 w : Wrap d ℝ} (x0 : ℕ → ℝ) (cs : List (Call d ℝ)) (hcs : ∀ c ∈ cs, ¬ SetsInitial c) (hwe : w = run (chebApprox d.N) (initialConditions w0 x0) cs)
    (hw : Reachable (chebApprox d.N) w) (ht : w.ocp.tStart < w.ocp.tStop) {sc : Scratch d} {env : Sqp.Env ℝ d.VAR d.NEQ d.NINEQ prec qps}
    (hp : env.prob = problem (chebApprox d.N) cb w.ocp sc) (hb : env.bd = bounds w) {st r : Sqp.State ℝ d.VAR d.NEQ d.NINEQ prec qps}
    (h : Sqp.solve env (start w st) = some r) (hs : r.status = .SOLVED) (hε : 0 ≤ env.cfg.epsPrim)
    {Ω : Set (ℕ → ℝ)} {L M : ℝ} (hL0 : 0 ≤ L) (hM0 : 0 ≤ M)
    (hl : ∀ t ∈ Icc w.ocp.tStart w.ocp.tStop, LipschitzIn d.NX Ω (rhs cb (paramAt (finish w r)) t) L)
    (hz : (w.ocp.tStop - w.ocp.tStart) / d.S * growth d.N * L ≤ 1 / 2)
    {ν : ℕ → ℝ → ℕ → ℝ} (hν : ∀ σ < d.S, ∀ l ≤ d.N, 0 < l → ν σ (w.grid (σ * d.N + l)) = controlAt (finish w r) (σ * d.N + l)) {y : ℕ → ℝ → ℝ}
    (hy : ∀ σ < d.S, SmoothSolution d.NX d.N y (fun i t => rhs cb (paramAt (finish w r)) t (fun j => y j t) (ν σ t) i) (w.grid (σ * d.N)) (w.grid (σ * d.N + d.N)) M)
    (h0 : ∀ i < d.NX, y i w.ocp.tStart = x0 i)
    (hm : ∀ k ≤ d.S * d.N, stateAt (finish w r) k ∈ Ω) (hm' : ∀ t ∈ Icc w.ocp.tStart w.ocp.tStop, (fun j => y j t) ∈ Ω) :
    ∀ k : Fin (d.S * d.N + 1), ∀ i : Fin d.NX, ∃ v, solutionXAt (finish w r) k i = some v ∧ |v - y i (w.grid k)|
      ≤ errorBound d.N L M (w.ocp.tStop - w.ocp.tStart) ((w.ocp.tStop - w.ocp.tStart) / d.S) (2 * d.S * env.cfg.epsPrim / (w.ocp.tStop - w.ocp.tStart)) env.cfg.epsPrim := by
  intro k i
  refine ⟨_, (at_getters (finish w r) k).1 i, ?_⟩
  refine (solved_accurate hN hS hf hg hw ht hp hb h hs hL0 hM0 hε hl hz hν hy (fun i hi => ?_) hm hm').1 k (by omega) i i.2
  rw [hwe] at hb h
  obtain ⟨v, v1, v2⟩ := solved_initial x0 cs hcs hb h hs ⟨i, hi⟩
  rw [← hwe] at v1
  have := (at_getters (finish w r) 0).1 ⟨i, hi⟩
  have e : stateAt (finish w r) 0 i = v := Option.some.inj (this.symm.trans v1)
  rw [e, h0 i hi]
  exact v2

/-- **C183**, instance: the plant `x' = -x`, whatever the cost and constraints, on `[0, 1/8]` with `S` segments of degree 2. The states that a `SOLVED` solve returns are within `24 S eps_prim + 3 / (100 S²)` of `exp(-t)`, if the first is 1. -/
example (S : ℕ) (hS : 1 ≤ S) {d : Dims} (hd : d = ⟨1, 1, 0, 0, S, 2⟩) [NeZero d.VAR] {prec : Sqp.Precond ℝ d.VAR (d.NEQ + d.NINEQ)} {qps : Sqp.QPSolver ℝ d.VAR (d.NEQ + d.NINEQ)} {cb : Cbs d ℝ}
    (hdyn : ∀ x u p t old i, cb.dyn (joint d x u p) t old i = -x i)
    (hf : ∀ z t old old', ∀ i < d.NX, cb.dyn z t old i = cb.dyn z t old' i) {w : Wrap d ℝ} (hw : Reachable (chebApprox d.N) w) (h0 : w.ocp.tStart = 0) (h1 : w.ocp.tStop = 1 / 8)
    {sc : Scratch d} {env : Sqp.Env ℝ d.VAR d.NEQ d.NINEQ prec qps} (he : 0 ≤ env.cfg.epsPrim)
    (hp : env.prob = problem (chebApprox d.N) cb w.ocp sc) (hb : env.bd = bounds w) {st r : Sqp.State ℝ d.VAR d.NEQ d.NINEQ prec qps}
    (h : Sqp.solve env (start w st) = some r) (hs : r.status = .SOLVED) (hx : stateAt (finish w r) 0 0 = 1) :
    ∀ k ≤ S * 2, |stateAt (finish w r) k 0 - Real.exp (-1 * w.grid k)| ≤ 24 * S * env.cfg.epsPrim + 3 / 100 / S ^ 2 := by
  have hS0 : (0 : ℝ) < S := by exact_mod_cast hS
  have hS1 : (1 : ℝ) ≤ S := by exact_mod_cast hS
  have dX : d.NX = 1 := by rw [hd]
  have dG : d.NG = 0 := by rw [hd]
  have dN : d.N = 2 := by rw [hd]
  have dS : d.S = S := by rw [hd]
  have hrhs : ∀ p t x u i, rhs cb p t x u i = -x i := fun p t x u i => hdyn x u p t _ i
  have hN : 1 ≤ d.N := by omega
  have key := (solved_accurate (Ω := univ) (L := 1) (M := 1) (e0 := 0) (y := fun _ t => Real.exp (-1 * t)) (ν := fun σ t =>
      if h : ∃ l, l ≤ d.N ∧ 0 < l ∧ w.grid (σ * d.N + l) = t then controlAt (finish w r) (σ * d.N + h.choose) else 0) hN (by omega) hf (fun _ _ _ _ i hi => absurd hi (by omega)) hw (by rw [h0, h1]; norm_num) hp hb h hs zero_le_one zero_le_one le_rfl
    (fun t _ x _ x' _ u B hB i hi => by
      rw [hrhs, hrhs, one_mul, show -x i - -x' i = -(x i - x' i) by ring, abs_neg]
      exact hB i hi)
    (by rw [dN, dS, h0, h1, PsOde.growth_two, sub_zero, mul_one, div_div, div_mul_eq_mul_div, div_le_div_iff₀ (by positivity) (by norm_num)]; linarith)
    (fun σ hσ l hl hl0 => by
      have hex : ∃ l', l' ≤ d.N ∧ 0 < l' ∧ w.grid (σ * d.N + l') = w.grid (σ * d.N + l) := ⟨l, hl, hl0, rfl⟩
      rw [dif_pos hex]
      have hc := hex.choose_spec
      have hinj : hex.choose = l := by
        have e := hc.2.2
        obtain ⟨s, hs'⟩ : ∃ s, s + σ + 1 = d.S := ⟨d.S - 1 - σ, by omega⟩
        replace e := (grid_segTime hN hw hs' hc.1).symm.trans (e.trans (grid_segTime hN hw hs' hl))
        have := seg_inj (N := d.N) (t0 := w.ocp.tStart) (tf := w.ocp.tStop) (by omega : 1 ≤ d.S) (by rw [h0, h1]; norm_num) s
          (a₁ := ⟨d.N - hex.choose, by have := hc.2.1; omega⟩) (a₂ := ⟨d.N - l, by omega⟩) e
        have := Fin.mk.inj_iff.1 this
        omega
      rw [hinj])
    (fun σ hσ => by
      obtain ⟨s, hs'⟩ : ∃ s, s + σ + 1 = d.S := ⟨d.S - 1 - σ, by omega⟩
      have g1 := grid_segTime hN hw hs' (Nat.zero_le _)
      have g2 := grid_segTime hN hw hs' (le_refl d.N)
      rw [Nat.add_zero, Nat.sub_zero, segStart_eq hN, h0, h1] at g1
      have e : segTime d.S d.N 0 (1 / 8) s 0 = segStart d.S 0 (1 / 8) s + 1 / 8 / d.S := by
        rw [CasCheb.segTime_eq, (CasCheb.points_ends hN).1]; unfold segStart; ring
      rw [Nat.sub_self, h0, h1, e] at g2
      rw [g1, g2, dX, dN]
      simp only [hrhs]
      exact smooth_segments (by omega) (by norm_num) (PsOde.decay_smooth (by norm_num)) (by omega))
    (fun i hi => by
      have : i = 0 := by omega
      rw [this, hx, h0]; simp)
    (fun _ _ => mem_univ _) (fun _ _ => mem_univ _)).1
  intro k hk
  refine (key k (by rw [dS, dN]; exact hk) 0 (by omega)).trans ?_
  rw [dN, dS, h0, h1]
  generalize env.cfg.epsPrim = ε at he
  unfold errorBound
  rw [PsOde.growth_two]
  have e1 : Real.exp (2 * 4 * 1 * (1 / 8 - 0)) ≤ 3 := by
    rw [show (2 * 4 * 1 * (1 / 8 - 0) : ℝ) = 1 by norm_num]
    linarith [Real.exp_one_lt_d9]
  have e2 : (0 + (1 / 8 - 0) * (4 * (2 * (S : ℝ) * ε / (1 / 8 - 0)) + (4 + 1) * (1 * ((1 / 8 - 0) / (S : ℝ)) ^ 2 / ((2 - 1).factorial : ℝ)))) = 8 * S * ε + 5 / 512 / (S : ℝ) ^ 2 := by
    norm_num
    field_simp
    ring
  rw [e2]
  calc Real.exp (2 * 4 * 1 * (1 / 8 - 0)) * (8 * S * ε + 5 / 512 / (S : ℝ) ^ 2) ≤ 3 * (8 * S * ε + 5 / 512 / (S : ℝ) ^ 2) := by gcongr
    _ = 24 * S * ε + 15 / 512 / (S : ℝ) ^ 2 := by ring
    _ ≤ 24 * S * ε + 3 / 100 / (S : ℝ) ^ 2 := by
      have : (15 / 512 : ℝ) / (S : ℝ) ^ 2 ≤ 3 / 100 / (S : ℝ) ^ 2 := div_le_div_of_nonneg_right (by norm_num) (by positivity)
      linarith

end PolyMPC.MpcSqp
