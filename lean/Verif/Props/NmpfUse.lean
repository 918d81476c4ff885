import Verif.Props.NmpfObj
import Mathlib.Analysis.Real.Pi.Bounds

/-! # The path-following controller `nmpf`: the plan, the reset of the path variable -/

namespace PolyMPC.Nmpf
open Ocp CasCheb GenOcp Spec Polynomial
open Nmpc (Mat eye Args Res put rep wsum weight store coldGuess boxX boxU after map_some put_in put_out app_lin lin_congr lin_inv eye_app)

set_option linter.unusedSectionVars false

section Field
variable {K : Type} [Field K] [LinearOrder K] [IsStrictOrderedRing K] {nx nu S N : ℕ} {o : Opts K} {solver : Args K → (ℕ → K) → Res K}

/-- A diagonal scaling with positive entries, and its inverse. -/
structure Diag (n : ℕ) (A B : Mat K) : Prop where
  nA : A.n = n
  nB : B.n = n
  offA : ∀ i < n, ∀ j < n, i ≠ j → A.a i j = 0
  offB : ∀ i < n, ∀ j < n, i ≠ j → B.a i j = 0
  pos : ∀ i < n, 0 < A.a i i
  inv : ∀ i < n, B.a i i * A.a i i = 1

theorem lin_diag {n : ℕ} {M : ℕ → ℕ → K} (h : ∀ i < n, ∀ j < n, i ≠ j → M i j = 0) (v : ℕ → K) {i : ℕ} (hi : i < n) : lin n M v i = M i i * v i := by
  unfold lin
  rw [if_pos hi, Finset.sum_eq_single i]
  · intro j hj hne; rw [h i hi j (Finset.mem_range.1 hj) hne.symm, zero_mul]
  · intro hn; exact absurd (Finset.mem_range.2 hi) hn

theorem Diag.eye (n : ℕ) : Diag n (Nmpc.eye n : Mat K) (Nmpc.eye n) where
  nA := rfl
  nB := rfl
  offA := fun i _ j _ h => if_neg h
  offB := fun i _ j _ h => if_neg h
  pos := fun i _ => by show (0 : K) < if i = i then 1 else 0; rw [if_pos rfl]; exact one_pos
  inv := fun i _ => by show (if i = i then (1 : K) else 0) * (if i = i then 1 else 0) = 1; rw [if_pos rfl, one_mul]

/-- An unscaled controller is diagonally scaled. -/
theorem diag_off (h : o.scaling.getD false = false) :
    Diag (nx + 2) (initSX nx o).1 (initSX nx o).2 ∧ Diag (nu + 1) (initSU nu o).1 (initSU nu o).2 := by
  have h' : o.scale = false := h
  unfold initSX initSU
  rw [h', if_neg Bool.false_ne_true, if_neg Bool.false_ne_true]
  exact ⟨Diag.eye _, Diag.eye _⟩

theorem after_bnd {n : ℕ} {A B : Mat K} (d : Diag n A B) (last : Option (ℕ → Option K)) {i : ℕ} (hi : i < n) :
    after A n none last i = A.bnd n (fun j => last.bind fun b => b j) i := by
  cases last with
  | some b => rfl
  | none =>
    have hr : Nmpc.rowInf A n (fun _ => (none : Option K)) i = true := by
      unfold Nmpc.rowInf
      simp only [d.nA, if_true, decide_true, Bool.true_or, Bool.and_true]
      rw [List.any_eq_true]
      exact ⟨i, List.mem_range.2 hi, by rw [Bool.and_eq_true, decide_eq_true_eq]; exact ⟨(d.pos i hi).ne', rfl⟩⟩
    show none = A.bnd n (fun _ => none) i
    unfold Mat.bnd
    rw [hr]; rfl

/-- Bounds on a scaled variable are bounds on the variable. -/
theorem Diag.within {n : ℕ} {A B : Mat K} (d : Diag n A B) {l u : Option (ℕ → Option K)} {y : ℕ → K} {i : ℕ} (hi : i < n)
    (h : within (after A n none l i) (after A n none u i) (y i)) : within (l.bind fun b => b i) (u.bind fun b => b i) (B.app n y i) := by
  rw [after_bnd d l hi, after_bnd d u hi] at h
  refine (Nmpc.scaled_bounds d.nA d.offA d.pos (fun j => l.bind fun b => b j) (fun j => u.bind fun b => b j) (B.app n y) hi).1 ?_
  have e : A.app n (B.app n y) i = y i := by
    rw [app_lin d.nA, lin_diag d.offA _ hi, app_lin d.nB, lin_diag d.offB _ hi]
    have := d.inv i hi
    linear_combination (y i) * this
  rw [e]; exact h

theorem turn_scale (w : Bool) {s : K} (hs : 0 < s) (c θ : K) : turn w (s * c) (s * θ) = s * turn w c θ := by
  unfold turn
  have h1 : (s * c < s * θ) = (c < θ) := propext (mul_lt_mul_iff_right₀ hs)
  have h2 : (s * θ < -(s * c)) = (θ < -c) := by rw [← mul_neg]; exact propext (mul_lt_mul_iff_right₀ hs)
  simp only [h1, h2]
  split
  · split
    · ring
    · split <;> ring
  · ring

theorem abs_of_scaled {s b c e z : K} (hs : 0 < s) (hb : b * s = 1) (h : within (some (s * c - s * e)) (some (s * c + s * e)) z) : |b * z - c| ≤ e := by
  have hb0 : 0 < b := by
    by_contra hn
    have := mul_nonpos_of_nonpos_of_nonneg (not_lt.1 hn) hs.le
    rw [hb] at this; exact absurd this (not_le.2 one_pos)
  have h1 := mul_le_mul_of_nonneg_left (h.1 _ rfl) hb0.le
  have h2 := mul_le_mul_of_nonneg_left (h.2 _ rfl) hb0.le
  rw [abs_le]
  constructor
  · have : b * (s * c - s * e) = c - e := by linear_combination (c - e) * hb
    linarith
  · have : b * (s * c + s * e) = c + e := by linear_combination (c + e) * hb
    linarith

/-- **C149.** The plan reported by `computeControl(x)` after any sequence of calls that leaves the scaling alone, for a controller without scaling or with a
positive diagonal scaling and a solver that respects the bounds it is given: the states at the initial time are those of `x`; path variable and velocity are
within the flexibility (0.78 unless given) of those of `x`; at the other nodes all states are within the last bounds of `setLBX`, `setUBX`; so are the controls at all nodes. -/
theorem plan {sys : Sys K} {ob ob1 ob' : Obj K} {ops : List (Op K)} {x : ℕ → K} (hc : construct nx nu sys o = some ob) (hs : ∀ op ∈ ops, keepsScaling op)
    (hr : run nx nu S N o solver ob ops = some ob1) (dx : Diag (nx + 2) (initSX nx o).1 (initSX nx o).2) (du : Diag (nu + 1) (initSU nu o).1 (initSU nu o).2)
    (h : computeControl nx nu S N o solver ob1 x = some ob') (hb : ∀ a, solveArgs nx nu S N o ob1 x = some a →
      ∀ r < (nx + 2) * (S * N + 1) + (nu + 1) * (S * N + 1), within (a.lbx r) (a.ubx r) ((solver a ob1.p).x r)) :
    ∃ T C, ob'.traj = some T ∧ ob'.ctrl = some C ∧
      (∀ i < nx, T (S * N) i = x i) ∧
      |T (S * N) nx - (x nx + turn ob1.warm o.resetAfter (x nx))| ≤ o.flexibility.getD (78 / 100) ∧
      |T (S * N) (nx + 1) - x (nx + 1)| ≤ o.flexibility.getD (78 / 100) ∧
      (∀ k < S * N, ∀ i < nx + 2, within ((lastSet lbxOf ops).bind fun b => b i) ((lastSet ubxOf ops).bind fun b => b i) (T k i)) ∧
      (∀ k < S * N + 1, ∀ i < nu + 1, within ((lastSet lbuOf ops).bind fun b => b i) ((lastSet ubuOf ops).bind fun b => b i) (C k i)) := by
  obtain ⟨a, ha, -, -, -, -, -, -, -, -, ht, hct⟩ := compute_some h
  obtain ⟨b1, b2, b3, b4, b5⟩ := solve_box hc hs hr ha
  have hb := hb a ha
  obtain ⟨-, hob, -⟩ := construct_some hc
  obtain ⟨-, -, i1, i2, -⟩ := run_box ops hs hr
  have hix : ob1.isx = (initSX nx o).2 := i1.trans (congrArg Nmpc.Obj.isx hob)
  have hiu : ob1.isu = (initSU nu o).2 := i2.trans (congrArg Nmpc.Obj.isu hob)
  rw [hix] at ht
  rw [hiu] at hct
  have he := end_idx (nx := nx) (S := S) (N := N)
  have row : ∀ k i, i < nx + 2 → (initSX nx o).2.app (nx + 2) (fun i => (solver a ob1.p).x (k * (nx + 2) + i)) i
      = (initSX nx o).2.a i i * (solver a ob1.p).x (k * (nx + 2) + i) := fun k i hi => by
    rw [app_lin dx.nB, lin_diag dx.offB _ hi]
  refine ⟨_, _, ht, hct, fun i hi => ?_, ?_, ?_, fun k hk i hi => ?_, fun k hk i hi => ?_⟩
  · rw [row _ _ (by omega)]
    have hw := hb (S * N * (nx + 2) + i) (by omega)
    rw [(b2 i hi).1, (b2 i hi).2] at hw
    have e := le_antisymm (hw.2 _ rfl) (hw.1 _ rfl)
    rw [e, lin_diag dx.offA _ (by omega), ← mul_assoc, dx.inv i (by omega), one_mul]
  · rw [row _ _ (by omega)]
    have hw := hb (S * N * (nx + 2) + nx) (by omega)
    rw [b3.1, b3.2, lin_diag dx.offA _ (by omega), turn_scale _ (dx.pos nx (by omega)), ← mul_add] at hw
    exact abs_of_scaled (dx.pos nx (by omega)) (dx.inv nx (by omega)) hw
  · rw [row _ _ (by omega)]
    have hw := hb (S * N * (nx + 2) + (nx + 1)) (by omega)
    rw [b4.1, b4.2, lin_diag dx.offA _ (by omega)] at hw
    exact abs_of_scaled (dx.pos (nx + 1) (by omega)) (dx.inv (nx + 1) (by omega)) hw
  · have hw := hb (k * (nx + 2) + i) (by have := (ne_idx hk hi).2; omega)
    rw [(b1 k hk i hi).1, (b1 k hk i hi).2] at hw
    exact dx.within (y := fun i => (solver a ob1.p).x (k * (nx + 2) + i)) hi hw
  · have hw := hb ((nx + 2) * (S * N + 1) + (k * (nu + 1) + i)) (by have := un_idx (nu := nu) hk hi; omega)
    rw [(b5 k hk i hi).1, (b5 k hk i hi).2] at hw
    refine du.within (y := fun i => (solver a ob1.p).x ((S * N + 1) * (nx + 2) + k * (nu + 1) + i)) hi ?_
    rw [Nat.mul_comm (S * N + 1), Nat.add_assoc]
    exact hw

/-! ### C150: the reset of the path variable -/

/-- Outside `[-c, c]` the correction brings the path variable back by one period in a warm start: into `[-c, c]` if it is within two periods, and not
otherwise. In a cold start nothing is corrected. -/
theorem turn_range {c : K} (hc : 0 ≤ c) (θ : K) :
    turn false c θ = 0 ∧ (|θ| ≤ c → turn true c θ = 0) ∧ (|θ| ≤ 2 * c → |θ + turn true c θ| ≤ c) ∧ (2 * c < |θ| → c < |θ + turn true c θ|) := by
  refine ⟨rfl, fun h => ?_, fun h => ?_, fun h => ?_⟩
  · rw [abs_le] at h
    unfold turn
    rw [if_pos rfl, if_neg (by linarith), if_neg (by linarith)]
  · unfold turn
    rw [if_pos rfl]
    rw [abs_le] at h ⊢
    split
    · constructor <;> linarith
    · split
      · constructor <;> linarith
      · constructor <;> linarith
  · unfold turn
    rw [if_pos rfl]
    rcases le_or_gt 0 θ with h0 | h0
    · rw [abs_of_nonneg h0] at h
      rw [if_pos (by linarith)]
      exact lt_of_lt_of_le (by linarith) (le_abs_self _)
    · rw [abs_of_neg h0] at h
      rw [if_neg (by linarith), if_pos (by linarith)]
      exact lt_of_lt_of_le (by linarith) (neg_le_abs _)

/-- The correction of a point: all path variables move by `c`, nothing else changes. -/
theorem shiftTheta_reads (NN : ℕ) (c : K) (v : ℕ → K) {k : ℕ} (hk : k < NN) :
    px nx (shiftTheta nx NN c v) k = px nx v k ∧ th nx (shiftTheta nx NN c v) k = th nx v k + c ∧ om nx (shiftTheta nx NN c v) k = om nx v k ∧
    pu nx nu NN (shiftTheta nx NN c v) k = pu nx nu NN v k ∧ ac nx nu NN (shiftTheta nx NN c v) k = ac nx nu NN v k := by
  have hx : ∀ i < nx + 2, k * (nx + 2) + i < NN * (nx + 2) := fun i hi => blk_le hi hk
  refine ⟨?_, ?_, ?_, ?_, ?_⟩
  · funext i
    unfold px part
    by_cases hi : i < nx
    · rw [if_pos hi, if_pos hi]
      unfold shiftTheta
      rw [(blk_mod (show i < nx + 2 by omega)).1, if_neg (by omega)]
    · rw [if_neg hi, if_neg hi]
  · unfold th shiftTheta
    rw [(blk_mod (show nx < nx + 2 by omega)).1, if_pos ⟨hx nx (by omega), rfl⟩]
  · unfold om shiftTheta
    rw [Nat.add_assoc, (blk_mod (show nx + 1 < nx + 2 by omega)).1, if_neg (by omega)]
  · funext i
    unfold pu part shiftTheta
    by_cases hi : i < nu
    · rw [if_pos hi, if_pos hi, if_neg (by omega)]
    · rw [if_neg hi, if_neg hi]
  · unfold ac shiftTheta
    rw [if_neg (by omega)]

/-- Calls without a solve leave guess and solution alone, calls without `disableWarmStart` the warm start flag. -/
theorem run_quiet (ops : List (Op K)) : ∀ {ob ob' : Obj K}, (∀ op ∈ ops, noSolve op) → run nx nu S N o solver ob ops = some ob' →
    ob'.res = ob.res ∧ ob'.arg.x0 = ob.arg.x0 ∧ ob'.arg.lamG0 = ob.arg.lamG0 ∧ ob'.arg.lamX0 = ob.arg.lamX0 ∧ ob'.traj = ob.traj ∧ ob'.ctrl = ob.ctrl ∧
    ((∀ op ∈ ops, quiet op) → ob.warm = true → ob'.warm = true) := by
  induction ops with
  | nil => intro ob ob' _ h; cases h; exact ⟨rfl, rfl, rfl, rfl, rfl, rfl, fun _ => id⟩
  | cons op ops ih =>
    intro ob ob' hs h
    obtain ⟨ob1, h1, h2⟩ := run_cons ob op ops h
    obtain ⟨b1, b2, b3, b4, b5, b6, b7⟩ := ih (fun o ho => hs o (List.mem_cons_of_mem _ ho)) h2
    have key : ob1.res = ob.res ∧ ob1.arg.x0 = ob.arg.x0 ∧ ob1.arg.lamG0 = ob.arg.lamG0 ∧ ob1.arg.lamX0 = ob.arg.lamX0 ∧ ob1.traj = ob.traj ∧
        ob1.ctrl = ob.ctrl ∧ (quiet op → ob.warm = true → ob1.warm = true) := by
      cases op with
      | setLBX b => obtain ⟨v, -, rfl⟩ := map_some h1; exact ⟨rfl, rfl, rfl, rfl, rfl, rfl, fun _ => id⟩
      | setUBX b => obtain ⟨v, -, rfl⟩ := map_some h1; exact ⟨rfl, rfl, rfl, rfl, rfl, rfl, fun _ => id⟩
      | setLBU b => obtain ⟨v, -, rfl⟩ := map_some h1; exact ⟨rfl, rfl, rfl, rfl, rfl, rfl, fun _ => id⟩
      | setUBU b => obtain ⟨v, -, rfl⟩ := map_some h1; exact ⟨rfl, rfl, rfl, rfl, rfl, rfl, fun _ => id⟩
      | setStateScaling s si => cases h1; exact ⟨rfl, rfl, rfl, rfl, rfl, rfl, fun _ => id⟩
      | setControlScaling s si => cases h1; exact ⟨rfl, rfl, rfl, rfl, rfl, rfl, fun _ => id⟩
      | setReferenceVelocity v => obtain ⟨-, rfl⟩ := setVel_some h1; exact ⟨rfl, rfl, rfl, rfl, rfl, rfl, fun _ => id⟩
      | setPathParameters n v =>
        rcases setPath_some h1 with ⟨-, rfl⟩ | ⟨-, rfl⟩ <;> exact ⟨rfl, rfl, rfl, rfl, rfl, rfl, fun _ => id⟩
      | enableWarmStart => cases h1; exact ⟨rfl, rfl, rfl, rfl, rfl, rfl, fun _ _ => rfl⟩
      | disableWarmStart => cases h1; exact ⟨rfl, rfl, rfl, rfl, rfl, rfl, fun q => q.elim⟩
      | computeControl x => exact (hs _ List.mem_cons_self).elim
    obtain ⟨a1, a2, a3, a4, a5, a6, a7⟩ := key
    exact ⟨b1.trans a1, b2.trans a2, b3.trans a3, b4.trans a4, b5.trans a5, b6.trans a6,
      fun hq hw => b7 (fun o ho => hq o (List.mem_cons_of_mem _ ho)) (a7 (hq op List.mem_cons_self) hw)⟩

/-- **C150.** A solve for `y` after a solve and calls that neither solve nor switch warm start off: it starts from the multipliers of the previous solve and
from its solution, in which all path variables are moved by the same amount `c` as the given one, so that guess and bounds of the initial node agree. -/
theorem guess_follows {ob ob1 ob2 : Obj K} {x y : ℕ → K} {a b : Args K} {mid : List (Op K)} (ha : solveArgs nx nu S N o ob x = some a)
    (h1 : computeControl nx nu S N o solver ob x = some ob1) (hm : ∀ op ∈ mid, quiet op) (h2 : run nx nu S N o solver ob1 mid = some ob2)
    (hb : solveArgs nx nu S N o ob2 y = some b) :
    let c := turn true (ob2.sx.a nx nx * o.resetAfter) (lin (nx + 2) ob2.sx.a y nx)
    b.lbx (S * N * (nx + 2) + nx) = some (lin (nx + 2) ob2.sx.a y nx + c - ob2.sx.a nx nx * o.flex) ∧
    b.ubx (S * N * (nx + 2) + nx) = some (lin (nx + 2) ob2.sx.a y nx + c + ob2.sx.a nx nx * o.flex) ∧
    b.lamG0 = some (solver a ob.p).lamG ∧ b.lamX0 = some (solver a ob.p).lamX ∧
    ∃ g, b.x0 = some g ∧ ∀ k ≤ S * N, px nx g k = px nx (solver a ob.p).x k ∧ th nx g k = th nx (solver a ob.p).x k + c ∧
      om nx g k = om nx (solver a ob.p).x k ∧ pu nx nu (S * N + 1) g k = pu nx nu (S * N + 1) (solver a ob.p).x k ∧
      ac nx nu (S * N + 1) g k = ac nx nu (S * N + 1) (solver a ob.p).x k := by
  obtain ⟨a', ha', -, hw, hres, -⟩ := compute_some h1
  have e : a' = a := Option.some.inj (ha'.symm.trans ha)
  subst e
  obtain ⟨b1, -, -, -, -, -, b7⟩ := run_quiet mid (fun op ho => quiet_noSolve (hm op ho)) h2
  have hw2 := b7 hm hw
  obtain ⟨-, X, -, x2, e1, e2, hwarm, -⟩ := args_some hb
  obtain ⟨-, g1, g2, g3⟩ := hwarm hw2
  rw [b1, hres] at g1 g2 g3
  rw [hw2] at x2
  refine ⟨?_, ?_, g2, g3, _, g1, fun k hk => shiftTheta_reads _ _ _ (by omega)⟩
  · rw [e1, pin_th, x2]; congr 1; ring
  · rw [e2, pin_th, x2]

/-- **C150.** `disableWarmStart` holds for one solve: it starts from the given state at all nodes and from the controls and multipliers of the previous guess, and afterwards warm start is on
again. -/
theorem disabled_once {ob ob1 ob2 : Obj K} {x : ℕ → K} {a : Args K} (h0 : run nx nu S N o solver ob [.disableWarmStart] = some ob1) (ha : solveArgs nx nu S N o ob1 x = some a)
    (h1 : computeControl nx nu S N o solver ob1 x = some ob2) :
    a.lamG0 = ob.arg.lamG0 ∧ a.lamX0 = ob.arg.lamX0 ∧ ob2.warm = true ∧ ∃ v g, ob.arg.x0 = some v ∧ a.x0 = some g ∧
      (∀ k ≤ S * N, ∀ i < nx + 2, g (k * (nx + 2) + i) = lin (nx + 2) ob1.sx.a x i) ∧ ∀ j, (S * N + 1) * (nx + 2) ≤ j → g j = v j := by
  obtain ⟨ob', e1, e2⟩ := run_cons ob _ _ h0
  cases e1
  cases e2
  obtain ⟨-, X, -, -, -, -, -, hcold⟩ := args_some ha
  obtain ⟨c1, c2, c3⟩ := hcold rfl
  obtain ⟨-, -, -, hw, -⟩ := compute_some h1
  refine ⟨c2, c3, hw, ?_⟩
  obtain ⟨v, hv, hg⟩ := map_some c1
  refine ⟨v, _, hv, hg.symm, fun k hk i hi => ?_, fun j hj => ?_⟩
  · have hlt : k * (nx + 2) + i < (S * N + 1) * (nx + 2) := by
      calc k * (nx + 2) + i < k * (nx + 2) + (nx + 2) := by omega
        _ = (k + 1) * (nx + 2) := by ring
        _ ≤ _ := Nat.mul_le_mul_right _ (by omega)
    have := put_in v 0 ((S * N + 1) * (nx + 2)) (rep (nx + 2) (lin (nx + 2) ob.sx.a x)) hlt
    rw [Nat.zero_add] at this
    refine this.trans ?_
    unfold rep
    rw [Nat.mul_add_mod_of_lt hi]
  · exact put_out v 0 ((S * N + 1) * (nx + 2)) _ (Or.inr (by omega))

/-- **C150 (negative).** Warm start switched on before the first solve: if the path variable of `x` is beyond the period the call throws, although there is
nothing wrong with `x`. Otherwise the solver gets no guess. -/
theorem early_warm {sys : Sys K} {ob ob1 : Obj K} {ops : List (Op K)} {x : ℕ → K} (hc : construct nx nu sys o = some ob) (hs : ∀ op ∈ ops, noSolve op)
    (hk : ∀ op ∈ ops, keepsScaling op) (dx : Diag (nx + 2) (initSX nx o).1 (initSX nx o).2) (hreset : 0 < o.resetAfter)
    (hr : run nx nu S N o solver ob ops = some ob1) (hw : ob1.warm = true) :
    (o.resetAfter < |x nx| → computeControl nx nu S N o solver ob1 x = none) ∧ ∀ a, solveArgs nx nu S N o ob1 x = some a → a.x0 = none := by
  obtain ⟨-, hob, -⟩ := construct_some hc
  obtain ⟨q1, -⟩ := run_quiet ops hs hr
  obtain ⟨b1, -⟩ := run_box ops hk hr
  have hres : ob1.res = none := q1.trans (congrArg Nmpc.Obj.res hob)
  have hsx : ob1.sx = (initSX nx o).1 := b1.trans (congrArg Nmpc.Obj.sx hob)
  constructor
  · intro hx
    cases h : computeControl nx nu S N o solver ob1 x with
    | none => rfl
    | some ob' =>
      obtain ⟨a, ha, -⟩ := compute_some h
      obtain ⟨-, X, -, -, -, -, hwarm, -⟩ := args_some ha
      have := (hwarm hw).1
      rw [hres, hsx, lin_diag dx.offA _ (by omega), turn_scale _ (dx.pos nx (by omega))] at this
      have hne : turn true o.resetAfter (x nx) ≠ 0 := by
        unfold turn
        rw [if_pos rfl]
        split
        · linarith
        · split
          · linarith
          next h1 h2 =>
            rcases le_or_gt 0 (x nx) with h0 | h0
            · rw [abs_of_nonneg h0] at hx; exact absurd hx h1
            · rw [abs_of_neg h0] at hx; exact absurd (by linarith) h2
      cases this (mul_ne_zero (dx.pos nx (by omega)).ne' hne)
  · intro a ha
    obtain ⟨-, X, -, -, -, -, hwarm, -⟩ := args_some ha
    rw [(hwarm hw).2.1, hres]; rfl

end Field

variable {nx nu S N : ℕ} {o : Opts ℝ} {solver : Args ℝ → (ℕ → ℝ) → Res ℝ}

theorem Solves.shift {tf : ℝ} {s : ℕ} {y dy : ℕ → ℝ} (c : ℝ) (h : Solves S N tf s y dy) : Solves S N tf s (fun k => y k + c) dy := by
  obtain ⟨Q, hQ, h1, h2⟩ := h
  refine ⟨Q + C c, (natDegree_add_C).trans_le hQ, fun l hl => ?_, fun j hj => ?_⟩
  · rw [eval_add, eval_C, h1 l hl]
  · rw [derivative_add, derivative_C, add_zero, h2 j hj]

/-- **C150.** Moving all path variables of a point by a period of the path changes neither objective nor feasibility: for a path whose period is
`reset_path_after` the reset does not change the problem. -/
theorem reset_harmless {sys : Sys ℝ} {tf c : ℝ} {p v : ℕ → ℝ} (hS : 1 ≤ S) (hN : 1 ≤ N) (h : 0 < tf) (ho : o.scaling.getD false = false)
    {pth : ℝ → (ℕ → ℝ) → ℕ → ℝ} (hp : pathFn sys o = some pth) (hper : ∀ θ pp i, pth (θ + c) pp i = pth θ pp i) :
    ∃ q q', nlp nx nu S N (scheme N) sys o tf p v = some q ∧ nlp nx nu S N (scheme N) sys o tf p (shiftTheta nx (S * N + 1) c v) = some q' ∧
      q'.f = q.f ∧ ((∀ r < q'.n, q'.g r = 0) ↔ ∀ r < q.n, q.g r = 0) := by
  obtain ⟨q, hq⟩ : ∃ q, nlp nx nu S N (scheme N) sys o tf p v = some q := by unfold nlp; rw [hp]; exact ⟨_, rfl⟩
  obtain ⟨q', hq'⟩ : ∃ q, nlp nx nu S N (scheme N) sys o tf p (shiftTheta nx (S * N + 1) c v) = some q := by unfold nlp; rw [hp]; exact ⟨_, rfl⟩
  refine ⟨q, q', hq, hq', ?_, ?_⟩
  · obtain ⟨-, ⟨pth1, e1, f1⟩, -⟩ := program_meaning hS hN h ho hq
    obtain ⟨-, ⟨pth2, e2, f2⟩, -⟩ := program_meaning hS hN h ho hq'
    cases Option.some.inj (e1.symm.trans hp)
    cases Option.some.inj (e2.symm.trans hp)
    have hr := fun k (hk : k < S * N + 1) => shiftTheta_reads (nx := nx) (nu := nu) (S * N + 1) c v hk
    rw [f1, f2]
    congr 1
    · obtain ⟨a1, a2, -⟩ := hr 0 (by omega)
      simp only [a1, a2, hper]
    · refine Finset.sum_congr rfl fun s hs => ?_
      congr 1
      refine Finset.sum_congr rfl fun m hm => ?_
      have hk : s * N + m < S * N + 1 := by
        have h1 := Finset.mem_range.1 hs
        have h2 := Finset.mem_range.1 hm
        calc s * N + m < s * N + N + 1 := by omega
          _ = (s + 1) * N + 1 := by rw [Nat.succ_mul]
          _ ≤ S * N + 1 := Nat.add_le_add_right (Nat.mul_le_mul_right N h1) 1
      obtain ⟨a1, a2, a3, a4, a5⟩ := hr _ hk
      simp only [a1, a2, a3, a4, a5, hper]
  · have key : ∀ {v w : ℕ → ℝ} (c : ℝ) {q q' : Nmpc.Nlp ℝ}, nlp nx nu S N (scheme N) sys o tf p v = some q → nlp nx nu S N (scheme N) sys o tf p w = some q' →
        (∀ k < S * N + 1, px nx w k = px nx v k ∧ th nx w k = th nx v k + c ∧ om nx w k = om nx v k ∧
          pu nx nu (S * N + 1) w k = pu nx nu (S * N + 1) v k ∧ ac nx nu (S * N + 1) w k = ac nx nu (S * N + 1) v k) →
        (∀ r < q.n, q.g r = 0) → ∀ r < q'.n, q'.g r = 0 := by
      intro v w c q q' hq hq' hr hz
      refine (program_meaning hS hN h ho hq').2.2.2 fun s hs => ?_
      obtain ⟨z1, z2, z3⟩ := (program_meaning hS hN h ho hq).2.2.1 hz s hs
      refine ⟨fun i hi => (z1 i hi).congr hs (fun k hk => ?_) fun k hk => ?_, (z2.shift c).congr hs (fun k hk => ?_) fun k hk => ?_,
        z3.congr hs (fun k hk => ?_) fun k hk => ?_⟩
      · rw [(hr k (by omega)).1]
      · rw [(hr k (by omega)).1, (hr k (by omega)).2.2.2.1]
      · rw [(hr k (by omega)).2.1]
      · rw [(hr k (by omega)).2.2.1]
      · rw [(hr k (by omega)).2.2.1]
      · rw [(hr k (by omega)).2.2.2.2]
    constructor
    · refine key (-c) hq' hq fun k hk => ?_
      obtain ⟨a1, a2, a3, a4, a5⟩ := shiftTheta_reads (nx := nx) (nu := nu) (S * N + 1) c v hk
      exact ⟨a1.symm, by rw [a2]; ring, a3.symm, a4.symm, a5.symm⟩
    · exact key c hq hq' fun k hk => shiftTheta_reads (nx := nx) (nu := nu) (S * N + 1) c v hk

/-- **C150 (negative).** The reset is not switched off for paths that are not periodic, and its default period is 2π. Path `θ ↦ θ`, one output `x 0`: a system
that is exactly on the path, `x 0 = θ`, beyond `θ = reset_path_after`. In every plan within the bounds of the solve the path variable starts more than
`reset_path_after - flexibility` away from the system. -/
theorem reset_open_path {sys : Sys ℝ} {ob ob1 ob' : Obj ℝ} {ops : List (Op ℝ)} {x : ℕ → ℝ} (hn : 1 ≤ nx) (hc : construct nx nu sys o = some ob)
    (hs : ∀ op ∈ ops, keepsScaling op) (hr : run nx nu S N o solver ob ops = some ob1) (ho : o.scaling.getD false = false) (hw : ob1.warm = true)
    (h : computeControl nx nu S N o solver ob1 x = some ob') (hb : ∀ a, solveArgs nx nu S N o ob1 x = some a →
      ∀ r < (nx + 2) * (S * N + 1) + (nu + 1) * (S * N + 1), within (a.lbx r) (a.ubx r) ((solver a ob1.p).x r))
    (hon : x 0 = x nx) (hx : o.resetAfter < x nx) :
    ∃ T, ob'.traj = some T ∧ T (S * N) 0 = x 0 ∧ o.resetAfter - o.flexibility.getD (78 / 100) ≤ |T (S * N) nx - T (S * N) 0| := by
  obtain ⟨dx, du⟩ := diag_off (nx := nx) (nu := nu) ho
  obtain ⟨T, C, h1, -, h3, h4, -⟩ := plan hc hs hr dx du h hb
  refine ⟨T, h1, h3 0 (by omega), ?_⟩
  have ht : turn ob1.warm o.resetAfter (x nx) = -o.resetAfter := by unfold turn; rw [hw, if_pos rfl, if_pos hx]
  rw [ht] at h4
  rw [h3 0 (by omega), hon]
  rw [abs_le] at h4
  have : o.resetAfter - o.flexibility.getD (78 / 100) ≤ -(T (S * N) nx - x nx) := by linarith
  exact this.trans (neg_le_abs _)

/-- **C150 (negative).** With no options given, past `θ = 2π` the plan starts more than 5 behind a system that is on the path. -/
theorem reset_open_path_default {sys : Sys ℝ} {ob ob1 ob' : Obj ℝ} {ops : List (Op ℝ)} {x : ℕ → ℝ} (hn : 1 ≤ nx) (hc : construct nx nu sys Opts.default = some ob)
    (hs : ∀ op ∈ ops, keepsScaling op) (hr : run nx nu S N Opts.default solver ob ops = some ob1) (hw : ob1.warm = true)
    (h : computeControl nx nu S N Opts.default solver ob1 x = some ob') (hb : ∀ a, solveArgs nx nu S N Opts.default ob1 x = some a →
      ∀ r < (nx + 2) * (S * N + 1) + (nu + 1) * (S * N + 1), within (a.lbx r) (a.ubx r) ((solver a ob1.p).x r))
    (hon : x 0 = x nx) (hx : 2 * Real.pi < x nx) :
    ∃ T, ob'.traj = some T ∧ T (S * N) 0 = x 0 ∧ 5 < |T (S * N) nx - T (S * N) 0| := by
  obtain ⟨T, h1, h2, h3⟩ := reset_open_path hn hc hs hr rfl hw h hb hon hx
  refine ⟨T, h1, h2, lt_of_lt_of_le ?_ h3⟩
  show (5 : ℝ) < 2 * Real.pi - 78 / 100
  have := Real.pi_gt_three
  linarith

/-- **C147 (negative).** The same for a solve: an unscaled controller, linear combinations `M x` of the states with `d/dt (M x) = A (M x)`, `A` invertible. If
`M x ≠ 0` for the state handed to `computeControl`, no point satisfies the bounds of the initial node and the constraints. -/
theorem solve_infeasible {sys : Sys ℝ} {ob ob1 : Obj ℝ} {ops : List (Op ℝ)} {x : ℕ → ℝ} {tf : ℝ} {a : Args ℝ} (hS : 1 ≤ S) (hN : 1 ≤ N) (h : 0 < tf)
    (ho : o.scaling.getD false = false) {m : ℕ} (A : Matrix (Fin m) (Fin m) ℝ) (hA : A.det ≠ 0) (M : Fin m → ℕ → ℝ)
    (hM : ∀ x u c, ∑ i ∈ Finset.range nx, M c i * sys.f x u i = ∑ e, A c e * ∑ i ∈ Finset.range nx, M e i * x i)
    (hc : construct nx nu sys o = some ob) (hs : ∀ op ∈ ops, keepsScaling op) (hr : run nx nu S N o solver ob ops = some ob1)
    (ha : solveArgs nx nu S N o ob1 x = some a) {c : Fin m} (hx : ∑ i ∈ Finset.range nx, M c i * x i ≠ 0) {v : ℕ → ℝ} {q : Nmpc.Nlp ℝ}
    (hv : ∀ r < (nx + 2) * (S * N + 1), within (a.lbx r) (a.ubx r) (v r)) (hq : nlp nx nu S N (scheme N) sys o tf ob1.p v = some q) :
    ¬ ∀ r < q.n, q.g r = 0 := by
  intro hz
  have key := modes_vanish hS hN h ho A hA M hM hq hz c (le_refl N)
  have e : (S - 1) * N + N = S * N := by rw [← Nat.succ_mul]; congr 1; omega
  rw [e] at key
  apply hx
  rw [← key]
  refine Finset.sum_congr rfl fun i hi => ?_
  have hi := Finset.mem_range.1 hi
  obtain ⟨dx, -⟩ := diag_off (nx := nx) (nu := nu) ho
  obtain ⟨-, b2, -⟩ := solve_box hc hs hr ha
  have hw := hv (S * N * (nx + 2) + i) (by have := end_idx (nx := nx) (S := S) (N := N); omega)
  rw [(b2 i hi).1, (b2 i hi).2] at hw
  have e1 := le_antisymm (hw.2 _ rfl) (hw.1 _ rfl)
  unfold px part
  rw [if_pos hi, e1, lin_diag dx.offA _ (by omega)]
  have : (initSX nx o).1.a i i = 1 := by
    have h' : o.scale = false := ho
    unfold initSX; rw [h']; exact if_pos rfl
  rw [this, one_mul]

/-! ### Concrete calls -/

/-- One state and one control, `x' = u`, output `x`; the path is `θ ↦ θ`. With one segment of degree one the variables are
`x(tf), θ(tf), ω(tf), x(0), θ(0), ω(0), u(tf), a(tf), u(0), a(0)`. -/
def exSys : Sys ℚ := ⟨1, fun _ u => u, fun x => x, some fun θ _ => θ, none, fun _ _ _ => 1⟩

/-- A solver that returns the guess, clipped to the bounds. -/
def exSolver : Args ℚ → (ℕ → ℚ) → Res ℚ := fun a _ =>
  ⟨fun r => let g := (a.x0.getD fun _ => 0) r
            let g := match a.lbx r with | some l => max l g | none => g
            match a.ubx r with | some u => min u g | none => g, fun _ => 7, fun _ => 8⟩

/-- The arguments of the solve for `x` after the calls `ops`. -/
def exArgs (ops : List (Op ℚ)) (x : ℕ → ℚ) : Option (Args ℚ) := do
  let o : Opts ℚ := { resetAfter := 6, flexibility := some (1 / 2) }
  let ob ← construct 1 1 exSys o
  let ob' ← run 1 1 1 1 o exSolver ob ops
  solveArgs 1 1 1 1 o ob' x

def exX (a b c : ℚ) : ℕ → ℚ := fun i => if i = 0 then a else if i = 1 then b else c

/-- The second solve is at `θ = 7`, past the period 6: the box of the initial node is about `θ = 1`, and the guess has its path variables moved back. -/
example : (exArgs [.setLBX fun _ => some (-20), .setUBU fun _ => some 3, .computeControl (exX 5 5 1)] (exX 6 7 1)).map
    (fun a => ((List.range 10).map a.lbx, (List.range 10).map a.ubx, a.x0.map (List.range 10).map)) =
    some ([some (-20), some (-20), some (-20), some 6, some (1 / 2), some (1 / 2), none, none, none, none],
      [none, none, none, some 6, some (3 / 2), some (3 / 2), some 3, some 3, some 3, some 3], some [5, -1, 1, 5, -1, 1, 0, 0, 0, 0]) := by decide +kernel

/-- A cold solve is not corrected; a warm one is corrected once. -/
example : (exArgs [] (exX 6 20 1)).map (fun a => (a.lbx 4, a.ubx 4)) = some (some (39 / 2), some (41 / 2)) ∧
    (exArgs [.computeControl (exX 5 5 1)] (exX 6 20 1)).map (fun a => (a.lbx 4, a.ubx 4)) = some (some (27 / 2), some (29 / 2)) ∧
    (exArgs [.enableWarmStart] (exX 6 20 1)).isNone ∧ (exArgs [.enableWarmStart] (exX 6 2 1)).map (fun a => a.x0.isNone) = some true := by decide +kernel

end PolyMPC.Nmpf
