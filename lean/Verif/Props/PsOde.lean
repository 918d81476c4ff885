import Verif.Model.PsOde
import Verif.Props.NmpcIvp
import Verif.Props.NmpcScale
import Verif.Props.NmpcObj
import Verif.Spec.PsOde

/-! # `PSODESolver` (C154-C158): what it computes -/

namespace PolyMPC.PsOde
open Ocp CasCheb GenOcp Spec Polynomial Nmpc

set_option linter.unusedSectionVars false

section Field
variable {K : Type} [Field K] [LinearOrder K] [IsStrictOrderedRing K]

/-! ### Arguments of the solver -/

/-- What an assignment to a slice of length `n` puts there. -/
def pick (n : ℕ) (x : DM K) : Option (ℕ → K) :=
  if x.rows = n ∧ x.cols = 1 then some fun i => x.a i 0 else
  if x.scalar then some fun _ => x.a 0 0 else
  if x.cols = n ∧ x.rows = 1 then some fun i => x.a 0 i else none

theorem assign_eq {T : Type} (v : ℕ → T) (a n : ℕ) (x : DM K) (f : K → T) :
    assign v a n x f = (pick n x).map fun g => put v a n fun i => f (g i) := by
  unfold assign pick
  by_cases h1 : x.rows = n ∧ x.cols = 1
  · rw [if_pos h1, if_pos h1]; rfl
  · rw [if_neg h1, if_neg h1]
    by_cases h2 : x.scalar = true
    · rw [if_pos h2, if_pos h2]; rfl
    · rw [if_neg h2, if_neg h2]
      by_cases h3 : x.cols = n ∧ x.rows = 1
      · rw [if_pos h3, if_pos h3]; rfl
      · rw [if_neg h3, if_neg h3]; rfl

theorem pick_col (n : ℕ) (v : ℕ → K) : pick n (DM.col n v) = some v := by
  unfold pick; rw [if_pos ⟨rfl, rfl⟩]; rfl

/-- `prepare` by what is assigned. -/
theorem prepare_eq (d : Dims) (ob : Obj K) (x u P : DM K) :
    prepare d ob x u P = (pick d.VARX (x.rep d.NN)).bind fun g => (pick d.NX x).bind fun z => (pick d.VARU u).bind fun w =>
      (argCol d.NP P).map fun p =>
        ⟨put (put ob.arg.lbx (d.S * d.N * d.NX) d.NX fun i => some (z i)) d.VARX d.VARU fun i => some (w i),
         put (put ob.arg.ubx (d.S * d.N * d.NX) d.NX fun i => some (z i)) d.VARX d.VARU fun i => some (w i),
         put (put ob.arg.x0 0 d.VARX fun i => some (g i)) d.VARX d.VARU fun i => some (w i), p⟩ := by
  unfold prepare
  simp only [assign_eq]
  cases pick d.VARX (x.rep d.NN) with
  | none => rfl
  | some g =>
    cases pick d.VARU u with
    | none => cases pick d.NX x <;> rfl
    | some w =>
      cases pick d.NX x with
      | none => rfl
      | some z => cases argCol d.NP P <;> rfl

theorem rep_col (m n : ℕ) (v : ℕ → K) : (DM.col n v).rep m = DM.col (m * n) fun i => v (i % n) := rfl

theorem varx_comm (d : Dims) : d.NN * d.NX = d.VARX := Nat.mul_comm _ _
theorem varu_comm (d : Dims) : d.NN * d.NU = d.VARU := Nat.mul_comm _ _

theorem prepare_col {d : Dims} {ob : Obj K} {P : DM K} (x u : ℕ → K) {p : ℕ → K} (hp : argCol d.NP P = some p) :
    ∃ a, prepare d ob (DM.col d.NX x) (DM.col (d.NN * d.NU) u) P = some a ∧ a.p = p ∧
      (∀ i < d.NX, a.lbx (d.S * d.N * d.NX + i) = some (x i) ∧ a.ubx (d.S * d.N * d.NX + i) = some (x i)) ∧
      (∀ c < d.VARU, a.lbx (d.VARX + c) = some (u c) ∧ a.ubx (d.VARX + c) = some (u c)) ∧
      (∀ k < d.NN, ∀ i < d.NX, a.x0 (k * d.NX + i) = some (x i)) ∧ ∀ c < d.VARU, a.x0 (d.VARX + c) = some (u c) := by
  have hx : d.VARX = d.S * d.N * d.NX + d.NX := varx_split d
  rw [prepare_eq, rep_col, varx_comm, varu_comm, pick_col, pick_col, pick_col, hp]
  refine ⟨_, rfl, rfl, fun i hi => ⟨?_, ?_⟩, fun c hc => ⟨?_, ?_⟩, fun k hk i hi => ?_, fun c hc => ?_⟩
  · dsimp only
    rw [put_out _ _ _ _ (by omega), put_in _ _ _ _ hi]
  · dsimp only
    rw [put_out _ _ _ _ (by omega), put_in _ _ _ _ hi]
  · dsimp only
    rw [put_in _ _ _ _ hc]
  · dsimp only
    rw [put_in _ _ _ _ hc]
  · have h := xIdx_lt d hk hi
    dsimp only
    rw [put_out _ _ _ _ (by omega)]
    have := put_in ob.arg.x0 0 d.VARX (fun j => some (x (j % d.NX))) h
    rw [Nat.zero_add] at this
    rw [this, Nat.add_comm, Nat.add_mul_mod_self_right, Nat.mod_eq_of_lt hi]
  · dsimp only
    rw [put_in _ _ _ _ hc]

/-! ### Program -/

theorem nlp_ok {d : Dims} {A : Approx K} {ode : Ode K} {o : Props K} {dt : K} {p var : ℕ → K} {q : Nmpc.Nlp K} (h : nlp d A ode o dt p var = some q) :
    q.nVar = d.VARX + d.VARU ∧ q.n = d.VARX - d.NX ∧ q.f = 1 / 1000 * ∑ r ∈ Finset.range q.n, q.g r * q.g r ∧
      q.g = collocateDynamics d A (funSode d ode o).val 0 dt var (fun i => var (d.VARX + i)) p := by
  unfold nlp at h
  by_cases hs : buildOk d ode o = true
  · rw [if_pos hs] at h
    cases h
    exact ⟨rfl, rfl, rfl, rfl⟩
  · rw [if_neg hs] at h; cases h

theorem uAt_part (d : Dims) (var : ℕ → K) (k : ℕ) : part d.NU (fun i => var (d.VARX + i)) (k * d.NU) = uAt d var k := by
  unfold uAt
  rw [part_shift]; congr 2; exact Nat.mul_comm _ _

theorem val_off {d : Dims} {ode : Ode K} {o : Props K} (h : o.on = false) (p var : ℕ → K) (k : ℕ) :
    (funSode d ode o).val (nodeXU d var (fun i => var (d.VARX + i)) p k) = ode.f (xAt d var k) (uAt d var k) (part d.NP p 0) := by
  unfold funSode
  rw [h]
  show ode.f (zx _ _) (zu _ _) (zp _ _) = _
  rw [zx_node, zu_node, zp_node, uAt_part]
  rfl

end Field

/-- A point that satisfies the bounds and the equations of the program handed to the solver. -/
def Feasible (d : Dims) (ode : Ode ℝ) (o : Props ℝ) (T : ℝ) (a : Args ℝ) (v : ℕ → ℝ) : Prop :=
  ∃ q, nlp d (scheme d.N) ode o T a.p v = some q ∧ allWithin q.nVar a.lbx a.ubx v ∧ ∀ r < q.n, q.g r = 0

theorem rows_collocate {d : Dims} {ode : Ode ℝ} {o : Props ℝ} {T : ℝ} {p v : ℕ → ℝ} {q : Nmpc.Nlp ℝ} (hS : 1 ≤ d.S) (hN : 1 ≤ d.N) (hT : 0 < T)
    (h : nlp d (scheme d.N) ode o T p v = some q) :
    (∀ r < q.n, q.g r = 0) ↔ ∀ s < d.S, ∀ i < d.NX, ∃ Q : ℝ[X], Q.natDegree ≤ d.N ∧
      (∀ l ≤ d.N, Q.eval (segTime d.S d.N 0 T s l) = xAt d v (s * d.N + l) i) ∧
      ∀ j < d.N, Q.derivative.eval (segTime d.S d.N 0 T s j) = (funSode d ode o).val (nodeXU d v (fun i => v (d.VARX + i)) p (s * d.N + j)) i := by
  obtain ⟨-, h2, -, h4⟩ := nlp_ok h
  rw [h2, h4, rows_iff d _ _ _ _ hS hN hT]
  refine forall₂_congr fun s hs => forall₂_congr fun i hi => exists_congr fun Q => and_congr_right fun _ => and_congr_left fun _ => ?_
  refine forall₂_congr fun l _ => ?_
  unfold xAt part
  rw [if_pos hi]

theorem rows_off {d : Dims} {ode : Ode ℝ} {o : Props ℝ} {T : ℝ} {p v : ℕ → ℝ} {q : Nmpc.Nlp ℝ} (hS : 1 ≤ d.S) (hN : 1 ≤ d.N) (hT : 0 < T)
    (ho : o.on = false) (h : nlp d (scheme d.N) ode o T p v = some q) :
    (∀ r < q.n, q.g r = 0) ↔ Collocates d.S d.N d.NX (fun x u => ode.f x u (part d.NP p 0)) T (xAt d v) (uAt d v) := by
  rw [rows_collocate hS hN hT h]
  simp only [val_off ho]
  rfl

/-- A variable between equal bounds. -/
theorem within_eq {c v : ℝ} {lb ub : Option ℝ} (h : within lb ub v) (h1 : lb = some c) (h2 : ub = some c) : v = c :=
  le_antisymm (h.2 c h2) (h.1 c h1)

/-- Initial state and controls of a feasible point. -/
theorem feasible_fixed {d : Dims} {ode : Ode ℝ} {o : Props ℝ} {T : ℝ} {a : Args ℝ} {v x u : ℕ → ℝ} (h : Feasible d ode o T a v)
    (hx : ∀ i < d.NX, a.lbx (d.S * d.N * d.NX + i) = some (x i) ∧ a.ubx (d.S * d.N * d.NX + i) = some (x i))
    (hu : ∀ c < d.VARU, a.lbx (d.VARX + c) = some (u c) ∧ a.ubx (d.VARX + c) = some (u c)) :
    xAt d v (d.S * d.N) = part d.NX x 0 ∧ ∀ k < d.NN, uAt d v k = part d.NU u (k * d.NU) := by
  obtain ⟨q, hq, hb, -⟩ := h
  rw [(nlp_ok hq).1] at hb
  have hs : d.VARX = d.S * d.N * d.NX + d.NX := varx_split d
  constructor
  · funext i
    unfold xAt part
    by_cases hi : i < d.NX
    · rw [if_pos hi, if_pos hi, Nat.zero_add]
      exact within_eq (hb _ (by omega)) (hx i hi).1 (hx i hi).2
    · rw [if_neg hi, if_neg hi]
  · intro k hk
    rw [← uAt_part]
    funext i
    unfold part
    by_cases hi : i < d.NU
    · rw [if_pos hi, if_pos hi]
      have hc : k * d.NU + i < d.VARU := by rw [← varu_comm]; exact blk_le hi hk
      exact within_eq (hb _ (by omega)) (hu _ hc).1 (hu _ hc).2
    · rw [if_neg hi, if_neg hi]

theorem collocates_congr {S N NX : ℕ} {f : (ℕ → ℝ) → (ℕ → ℝ) → ℕ → ℝ} {T : ℝ} {x u w : ℕ → ℕ → ℝ} (h : Collocates S N NX f T x u)
    (hu : ∀ k ≤ S * N, u k = w k) : Collocates S N NX f T x w := by
  intro s hs i hi
  obtain ⟨Q, h1, h2, h3⟩ := h s hs i hi
  refine ⟨Q, h1, h2, fun j hj => ?_⟩
  rw [h3 j hj, hu]
  have : (s + 1) * N ≤ S * N := Nat.mul_le_mul_right _ hs
  rw [Nat.add_mul, Nat.one_mul] at this
  omega

/-- The states of a column of node states. -/
def nodes (NX : ℕ) (y : DM ℝ) (k : ℕ) : ℕ → ℝ := part NX (fun r => y.a r 0) (k * NX)

section Meaning
variable {d : Dims} {ode : Ode ℝ} {o : Props ℝ} {T : ℝ} (solver : Args ℝ → Nmpc.Res ℝ) {ob : Obj ℝ} {P : DM ℝ} {p : ℕ → ℝ}

/-- **C154.** Without scaling, for every state `x0`, control `u` and parameter argument that CasADi accepts, `solve` does not throw. If the solver returns
a feasible point, then with `full = true` the answer is a collocation solution of the initial value problem with the constant control `u`, whose
last node is the initial state, and with `full = false` it is the state of its first node, which is the end of the horizon. -/
theorem solve_meaning (hS : 1 ≤ d.S) (hN : 1 ≤ d.N) (hT : 0 < T) (ho : o.on = false) (hob : ob.scale = false) (x0 u : ℕ → ℝ)
    (hp : argCol d.NP P = some p) :
    ∃ a, (∀ full, ∃ y, solve d solver ob (DM.col d.NX x0) (DM.col d.NU u) P full = some ({ ob with arg := a }, y)) ∧
      (Feasible d ode o T a (solver a).x →
        ∃ y e, solve d solver ob (DM.col d.NX x0) (DM.col d.NU u) P true = some ({ ob with arg := a }, y) ∧
          solve d solver ob (DM.col d.NX x0) (DM.col d.NU u) P false = some ({ ob with arg := a }, e) ∧
          y.rows = (d.S * d.N + 1) * d.NX ∧ y.cols = 1 ∧ e.rows = d.NX ∧ e.cols = 1 ∧
          Collocates d.S d.N d.NX (fun x u => ode.f x u (part d.NP p 0)) T (nodes d.NX y) (fun _ => part d.NU u 0) ∧
          (∀ i < d.NX, nodes d.NX y (d.S * d.N) i = x0 i) ∧ ∀ i < d.NX, e.a i 0 = nodes d.NX y 0 i) := by
  obtain ⟨a, ha, hap, hx, hu, -, -⟩ := prepare_col (ob := ob) x0 (fun i => u (i % d.NU)) hp
  have hsol : ∀ full, solve d solver ob (DM.col d.NX x0) (DM.col d.NU u) P full
      = some ({ ob with arg := a }, if full then DM.col d.VARX (solver a).x else DM.col d.NX (solver a).x) := by
    intro full
    unfold solve initial control extract
    rw [if_neg (by exact fun h => h rfl), hob]
    show (prepare d ob (DM.col d.NX x0) ((DM.col d.NU u).rep d.NN) P).bind _ = _
    rw [rep_col, ha]
    cases full <;> rfl
  refine ⟨a, fun full => ⟨_, hsol full⟩, fun hf => ⟨_, _, hsol true, hsol false, (varx_comm d).symm, rfl, rfl, rfl, ?_, ?_, ?_⟩⟩
  · obtain ⟨h1, h2⟩ := feasible_fixed hf hx hu
    obtain ⟨q, hq, -, hr⟩ := hf
    have := (rows_off hS hN hT ho hq).1 hr
    rw [hap] at this
    refine collocates_congr this fun k hk => ?_
    rw [h2 k (by unfold Dims.NN; omega)]
    funext i
    unfold part
    by_cases hi : i < d.NU
    · rw [if_pos hi, if_pos hi]
      beta_reduce
      rw [Nat.add_comm (k * d.NU), Nat.add_mul_mod_self_right, Nat.mod_eq_of_lt hi, Nat.zero_add]
    · rw [if_neg hi, if_neg hi]
  · intro i hi
    obtain ⟨h1, -⟩ := feasible_fixed hf hx hu
    have := congrFun h1 i
    unfold part at this
    rw [if_pos hi, Nat.zero_add] at this
    exact this
  · intro i hi
    unfold nodes part
    rw [if_pos hi, Nat.zero_mul, Nat.zero_add]
    rfl

/-- **C154.** `solve_trajectory` likewise, with a control per node. The first block of the control vector is the control at the end of the
horizon. -/
theorem trajectory_meaning (hS : 1 ≤ d.S) (hN : 1 ≤ d.N) (hT : 0 < T) (ho : o.on = false) (hob : ob.scale = false) (x0 u : ℕ → ℝ)
    (hp : argCol d.NP P = some p) :
    ∃ a, (∀ full, ∃ y, solveTrajectory d solver ob (DM.col d.NX x0) (DM.col ((d.S * d.N + 1) * d.NU) u) P full = some ({ ob with arg := a }, y)) ∧
      (Feasible d ode o T a (solver a).x →
        ∃ y e, solveTrajectory d solver ob (DM.col d.NX x0) (DM.col ((d.S * d.N + 1) * d.NU) u) P true = some ({ ob with arg := a }, y) ∧
          solveTrajectory d solver ob (DM.col d.NX x0) (DM.col ((d.S * d.N + 1) * d.NU) u) P false = some ({ ob with arg := a }, e) ∧
          y.x.rows = (d.S * d.N + 1) * d.NX ∧ y.x.cols = 1 ∧ e.x.rows = d.NX ∧ e.x.cols = 1 ∧
          Collocates d.S d.N d.NX (fun x u => ode.f x u (part d.NP p 0)) T (nodes d.NX y.x) (fun k => part d.NU u (k * d.NU)) ∧
          (∀ i < d.NX, nodes d.NX y.x (d.S * d.N) i = x0 i) ∧ ∀ i < d.NX, e.x.a i 0 = nodes d.NX y.x 0 i) := by
  obtain ⟨a, ha, hap, hx, hu, -, -⟩ := prepare_col (ob := ob) x0 u hp
  have hsol : ∀ full, solveTrajectory d solver ob (DM.col d.NX x0) (DM.col ((d.S * d.N + 1) * d.NU) u) P full
      = some ({ ob with arg := a }, ⟨if full then DM.col d.VARX (solver a).x else DM.col d.NX (solver a).x,
          DM.col (d.VARX + d.VARU) (solver a).lamX, DM.col (d.VARX - d.NX) (solver a).lamG⟩) := by
    intro full
    unfold solveTrajectory initial controls extract
    rw [if_neg (by exact fun h => h rfl), hob]
    show (prepare d ob (DM.col d.NX x0) (DM.col (d.NN * d.NU) u) P).bind _ = _
    rw [ha]
    cases full <;> rfl
  refine ⟨a, fun full => ⟨_, hsol full⟩, fun hf => ⟨_, _, hsol true, hsol false, (varx_comm d).symm, rfl, rfl, rfl, ?_, ?_, ?_⟩⟩
  · obtain ⟨h1, h2⟩ := feasible_fixed hf hx hu
    obtain ⟨q, hq, -, hr⟩ := hf
    have := (rows_off hS hN hT ho hq).1 hr
    rw [hap] at this
    exact collocates_congr this fun k hk => h2 k (by unfold Dims.NN; omega)
  · intro i hi
    obtain ⟨h1, -⟩ := feasible_fixed hf hx hu
    have := congrFun h1 i
    unfold part at this
    rw [if_pos hi, Nat.zero_add] at this
    exact this
  · intro i hi
    unfold nodes part
    rw [if_pos hi, Nat.zero_mul, Nat.zero_add]
    rfl

end Meaning

/-- **C155.** The objective is nonnegative and vanishes exactly where the equations hold: every feasible point is optimal. -/
theorem feasible_optimal {d : Dims} {ode : Ode ℝ} {o : Props ℝ} {T : ℝ} {p v : ℕ → ℝ} {q : Nmpc.Nlp ℝ} (h : nlp d (scheme d.N) ode o T p v = some q) :
    0 ≤ q.f ∧ (q.f = 0 ↔ ∀ r < q.n, q.g r = 0) := by
  obtain ⟨-, -, h3, -⟩ := nlp_ok h
  have hn : ∀ r ∈ Finset.range q.n, 0 ≤ q.g r * q.g r := fun r _ => mul_self_nonneg _
  refine ⟨?_, ?_⟩
  · rw [h3]
    exact mul_nonneg (by norm_num) (Finset.sum_nonneg hn)
  · rw [h3, mul_eq_zero, or_iff_right (by norm_num), Finset.sum_eq_zero_iff_of_nonneg hn]
    simp only [Finset.mem_range, mul_self_eq_zero]

end PolyMPC.PsOde
