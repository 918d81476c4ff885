import Verif.Props.NmpfUse

/-! # The path-following controller `nmpf`: parameters, queries, closest point on the path -/

namespace PolyMPC.Nmpf
open Ocp CasCheb GenOcp Spec Polynomial
open Nmpc (Mat eye Args Res put rep wsum weight store coldGuess boxX boxU after map_some put_in put_out app_lin lin_congr lin_inv eye_app)

set_option linter.unusedSectionVars false

section Field
variable {K : Type} [Field K] [LinearOrder K] [IsStrictOrderedRing K] {nx nu S N : ℕ} {o : Opts K} {solver : Args K → (ℕ → K) → Res K}

/-! ### C152: reference velocity and path parameters -/

/-- The parameters of a call of `setPathParameters`: a single number stands for all. -/
def pathOf (npp : ℕ) : Op K → Option (ℕ → K) | .setPathParameters n v => some (if n = npp then v else fun _ => v 0) | _ => none

theorem last_cons {T U : Type} (g : Op K → Option T) (f : T → U) (op : Op K) (ops : List (Op K)) (d : U) :
    ((lastSet g (op :: ops)).map f).getD d = ((lastSet g ops).map f).getD (((g op).map f).getD d) := by
  unfold lastSet
  rw [List.filterMap_cons]
  cases hg : g op with
  | none => rfl
  | some b =>
    simp only []
    rw [List.getLast?_cons]
    cases h : (ops.filterMap g).getLast? with
    | none => rfl
    | some c => rfl

theorem step_params {ob ob' : Obj K} {op : Op K} (hk : keepsScaling op) (h : step nx nu S N o solver ob op = some ob') :
    ob'.p 0 = ((velOf op).map fun v => ob.sx.a (nx + 1) (nx + 1) * v).getD (ob.p 0) ∧
    ∀ i < o.npp, ob'.p (1 + i) = ((pathOf o.npp op).map fun w => w i).getD (ob.p (1 + i)) := by
  cases op with
  | setLBX b => obtain ⟨v, -, rfl⟩ := map_some h; exact ⟨rfl, fun _ _ => rfl⟩
  | setUBX b => obtain ⟨v, -, rfl⟩ := map_some h; exact ⟨rfl, fun _ _ => rfl⟩
  | setLBU b => obtain ⟨v, -, rfl⟩ := map_some h; exact ⟨rfl, fun _ _ => rfl⟩
  | setUBU b => obtain ⟨v, -, rfl⟩ := map_some h; exact ⟨rfl, fun _ _ => rfl⟩
  | setStateScaling s si => exact hk.elim
  | setControlScaling s si => exact hk.elim
  | setReferenceVelocity v =>
    obtain ⟨-, rfl⟩ := setVel_some h
    exact ⟨put_in ob.p 0 1 _ (i := 0) (by omega), fun i _ => put_out ob.p 0 1 (fun _ => ob.sx.a (nx + 1) (nx + 1) * v) (i := 1 + i) (by omega)⟩
  | setPathParameters n v =>
    rcases setPath_some h with ⟨e, rfl⟩ | ⟨e, rfl⟩
    · refine ⟨put_out ob.p 1 o.npp v (i := 0) (by omega), fun i hi => ?_⟩
      show put _ 1 o.npp v (1 + i) = (if n = o.npp then v else fun _ => v 0) i
      rw [if_pos e, put_in _ _ _ _ hi]
    · refine ⟨put_out ob.p 1 o.npp (fun _ => v 0) (i := 0) (by omega), fun i hi => ?_⟩
      show put _ 1 o.npp (fun _ => v 0) (1 + i) = (if n = o.npp then v else fun _ => v 0) i
      rw [put_in _ _ _ _ hi]
      split
      · congr 1; omega
      · rfl
  | enableWarmStart => cases h; exact ⟨rfl, fun _ _ => rfl⟩
  | disableWarmStart => cases h; exact ⟨rfl, fun _ _ => rfl⟩
  | computeControl x =>
    obtain ⟨a, -, -, -, -, -, -, -, -, hp, -⟩ := compute_some h
    rw [hp]; exact ⟨rfl, fun _ _ => rfl⟩

theorem run_params (ops : List (Op K)) : ∀ {ob ob' : Obj K}, (∀ op ∈ ops, keepsScaling op) → run nx nu S N o solver ob ops = some ob' →
    ob'.p 0 = ((lastSet velOf ops).map fun v => ob.sx.a (nx + 1) (nx + 1) * v).getD (ob.p 0) ∧
    ∀ i < o.npp, ob'.p (1 + i) = ((lastSet (pathOf o.npp) ops).map fun w => w i).getD (ob.p (1 + i)) := by
  induction ops with
  | nil => intro ob ob' _ h; cases h; exact ⟨rfl, fun _ _ => rfl⟩
  | cons op ops ih =>
    intro ob ob' hs h
    obtain ⟨ob1, h1, h2⟩ := run_cons ob op ops h
    obtain ⟨b1, b2⟩ := ih (fun o ho => hs o (List.mem_cons_of_mem _ ho)) h2
    obtain ⟨a1, a2⟩ := step_params (hs op List.mem_cons_self) h1
    obtain ⟨s1, -⟩ := step_box (hs op List.mem_cons_self) h1
    refine ⟨?_, fun i hi => ?_⟩
    · rw [last_cons, b1, a1, s1]
    · rw [last_cons, b2 i hi, a2 i hi]

/-- **C152.** The constructor needs a path that can be called with as many arguments as the options say, and default path parameters if there are path
parameters. -/
theorem construct_iff (sys : Sys K) (hn : (initSX nx o).1.n = nx + 2) :
    (construct nx nu sys o).isSome ↔ (if 0 < o.npp then sys.path2.isSome ∧ o.defaults.isSome else sys.path1.isSome) := by
  constructor
  · intro h
    obtain ⟨ob, h⟩ := Option.isSome_iff_exists.1 h
    obtain ⟨h1, -, -, -, -, h2⟩ := construct_some h
    unfold pathFn at h1
    split
    next hp => rw [if_pos hp] at h1; exact ⟨h1, h2.resolve_left (by omega)⟩
    next hp => rw [if_neg hp] at h1; simpa using h1
  · intro h
    have hp : (pathFn sys o).isSome := by
      unfold pathFn
      split
      next hp => rw [if_pos hp] at h; exact h.1
      next hp => rw [if_neg hp] at h; simpa using h
    obtain ⟨pth, hp⟩ := Option.isSome_iff_exists.1 hp
    unfold construct
    rw [hp]
    simp only [Option.bind_eq_bind, Option.bind_some]
    unfold setVel
    rw [if_pos (show nx + 1 < (initSX nx o).1.n by omega)]
    simp only [Option.bind_some]
    cases hd : o.defaults with
    | some v => simp only []; unfold setPath; rw [if_pos rfl]; rfl
    | none =>
      have h0 : o.npp = 0 := by
        by_contra hne
        rw [if_pos (by omega), hd] at h
        exact Bool.false_ne_true h.2
      simp only []; unfold setPath; rw [if_pos h0.symm]; rfl

/-- **C152.** The parameters a solve or query uses after any sequence of calls that leaves the scaling alone: the last reference velocity set, scaled, initially
1; the last path parameters set, initially the defaults. -/
theorem params {sys : Sys K} {ob ob' : Obj K} {ops : List (Op K)} (hc : construct nx nu sys o = some ob) (hs : ∀ op ∈ ops, keepsScaling op)
    (hr : run nx nu S N o solver ob ops = some ob') :
    ob'.p 0 = (initSX nx o).1.a (nx + 1) (nx + 1) * (lastSet velOf ops).getD 1 ∧
    ∀ dflt, o.defaults = some dflt → ∀ i < o.npp, ob'.p (1 + i) = (lastSet (pathOf o.npp) ops).getD dflt i := by
  obtain ⟨-, hob, -, h0, h1, -⟩ := construct_some hc
  obtain ⟨b1, b2⟩ := run_params ops hs hr
  have hsx : ob.sx = (initSX nx o).1 := congrArg Nmpc.Obj.sx hob
  refine ⟨?_, fun dflt hd i hi => ?_⟩
  · rw [b1, hsx, h0]
    cases lastSet velOf ops with
    | none => show _ = _ * 1; rw [mul_one]; rfl
    | some v => rfl
  · rw [b2 i hi, h1 dflt hd i hi]
    cases lastSet (pathOf o.npp) ops with
    | none => rfl
    | some v => rfl

/-- **C152 (negative).** A scaling set after construction does not reach the program, but it scales the reference velocities set from then on: an unscaled
controller then tracks `s v` instead of `v`. -/
theorem late_velocity {ob ob' : Obj K} {s si : Mat K} {v : K} (h : run nx nu S N o solver ob [.setStateScaling s si, .setReferenceVelocity v] = some ob') :
    ob'.p 0 = s.a (nx + 1) (nx + 1) * v := by
  obtain ⟨ob1, h1, h2⟩ := run_cons _ _ _ h
  obtain ⟨ob2, h3, h4⟩ := run_cons _ _ _ h2
  cases h1
  cases h4
  obtain ⟨-, rfl⟩ := setVel_some h3
  exact put_in ob.p 0 1 (fun _ => s.a (nx + 1) (nx + 1) * v) (i := 0) (by omega)

/-! ### C151: queries -/

/-- The scalings for which the program is the unscaled one: none, or one that keeps states and path variables apart. -/
def GoodScaling (nx nu : ℕ) (o : Opts K) : Prop := o.scaling.getD false = false ∨ ∃ A B V W, Scaled nx nu o A B V W

theorem residual_good (hg : GoodScaling nx nu o) (sys : Sys K) (pth : K → (ℕ → K) → ℕ → K) (pp y : ℕ → K) :
    residual nx sys o pth pp ((initSX nx o).1.app (nx + 2) y) = fun i => pth (y nx) pp i - sys.out (cut nx y) i := by
  rcases hg with h | ⟨A, B, V, W, sc⟩
  · have h' : o.scale = false := h
    have e : (initSX nx o).1.app (nx + 2) y = part (nx + 2) y 0 := by
      unfold initSX; rw [h', if_neg Bool.false_ne_true]; exact eye_app _ _ _
    funext i
    unfold residual
    rw [h', if_neg Bool.false_ne_true, e]
    have e1 : part (nx + 2) y 0 nx = y nx := by unfold part; rw [if_pos (by omega), Nat.zero_add]
    have e2 : cut nx (part (nx + 2) y 0) = cut nx y := by
      funext j; unfold cut part
      by_cases hj : j < nx
      · rw [if_pos hj, if_pos hj, if_pos (by omega), Nat.zero_add]
      · rw [if_neg hj, if_neg hj]
    rw [e1, e2]
  · rw [sc.SX, app_lin sc.nS]
    exact sc.residual_at sys pth pp y

theorem vel_good (hg : GoodScaling nx nu o) (v : K) (y : ℕ → K) :
    velRes nx o ((initSX nx o).1.a (nx + 1) (nx + 1) * v) ((initSX nx o).1.app (nx + 2) y) = v - y (nx + 1) := by
  rcases hg with h | ⟨A, B, V, W, sc⟩
  · have h' : o.scale = false := h
    unfold velRes initSX
    rw [h', if_neg Bool.false_ne_true]
    show (eye (nx + 2)).a (nx + 1) (nx + 1) * ((eye (nx + 2)).a (nx + 1) (nx + 1) * v - (eye (nx + 2)).app (nx + 2) y (nx + 1)) = _
    have e : (eye (nx + 2) : Mat K).a (nx + 1) (nx + 1) = 1 := if_pos rfl
    rw [e, eye_app, one_mul, one_mul]
    unfold part; rw [if_pos (by omega), Nat.zero_add]
  · rw [sc.SX, app_lin sc.nS]
    exact sc.vel_at v y

/-- **C151.** `getVelocityError()` is the deviation of the velocity along the path, at the initial time of the last plan, from the last reference velocity set. -/
theorem velocity_error {sys : Sys K} {ob ob' : Obj K} {ops : List (Op K)} (hg : GoodScaling nx nu o) (hc : construct nx nu sys o = some ob)
    (hs : ∀ op ∈ ops, keepsScaling op) (hr : run nx nu S N o solver ob ops = some ob') :
    (∀ T, ob'.traj = some T → getVelocityError nx nu S N o ob' = |(lastSet velOf ops).getD 1 - T (S * N) (nx + 1)|) ∧
    (ob'.traj = none → getVelocityError nx nu S N o ob' = 0) := by
  obtain ⟨-, hob, -⟩ := construct_some hc
  obtain ⟨b1, -⟩ := run_box ops hs hr
  have hsx : ob'.sx = (initSX nx o).1 := b1.trans (congrArg Nmpc.Obj.sx hob)
  constructor
  · intro T hT
    unfold getVelocityError
    rw [hT]
    show |velRes nx o (ob'.p 0) (ob'.sx.app (nx + 2) (T (S * N)))| = _
    rw [(params hc hs hr).1, hsx, vel_good hg]
  · intro hT
    unfold getVelocityError
    rw [hT]

/-- **C151 (negative).** `getVirtState()` reads row 13 of the trajectory whatever the number of states. After a solve for `x` that respects its bounds: it
throws with fewer than 12 states; with 12 states it is the velocity of the path variable, not the path variable; with 13 states it is the path variable; with
more it is the state `x 13`, whatever the plan. -/
theorem virt_state {sys : Sys K} {ob ob1 ob' : Obj K} {ops : List (Op K)} {x : ℕ → K} (hc : construct nx nu sys o = some ob) (hs : ∀ op ∈ ops, keepsScaling op)
    (hr : run nx nu S N o solver ob ops = some ob1) (dx : Diag (nx + 2) (initSX nx o).1 (initSX nx o).2) (du : Diag (nu + 1) (initSU nu o).1 (initSU nu o).2)
    (h : computeControl nx nu S N o solver ob1 x = some ob') (hb : ∀ a, solveArgs nx nu S N o ob1 x = some a →
      ∀ r < (nx + 2) * (S * N + 1) + (nu + 1) * (S * N + 1), within (a.lbx r) (a.ubx r) ((solver a ob1.p).x r)) :
    (nx < 12 → getVirtState nx S N ob' = none) ∧
    (nx = 12 → ∃ w, getVirtState nx S N ob' = some w ∧ |w - x 13| ≤ o.flex) ∧
    (nx = 13 → ∃ θ, getVirtState nx S N ob' = some θ ∧ |θ - (x 13 + turn ob1.warm o.resetAfter (x 13))| ≤ o.flex) ∧
    (13 < nx → getVirtState nx S N ob' = some (x 13)) := by
  obtain ⟨T, C, h1, -, h3, h4, h5, -⟩ := plan hc hs hr dx du h hb
  unfold getVirtState
  rw [h1]
  refine ⟨fun hn => if_neg (by omega), fun hn => ⟨_, if_pos (by omega), ?_⟩, fun hn => ⟨_, if_pos (by omega), ?_⟩, fun hn => ?_⟩
  · rw [hn] at h5; exact h5
  · rw [hn] at h4; exact h4
  · show (if _ then _ else _) = _
    rw [if_pos (by omega), h3 13 (by omega)]

/-- **C151 (negative).** `getCost()` after a solve is the objective at the guess the solver was started from, not at the solution: two solvers with different
solutions have the same cost. -/
theorem cost_blind {A : Approx K} {sys : Sys K} {tf : K} {solver' : Args K → (ℕ → K) → Res K} {ob ob1 ob2 : Obj K} {x : ℕ → K}
    (h1 : computeControl nx nu S N o solver ob x = some ob1) (h2 : computeControl nx nu S N o solver' ob x = some ob2) :
    getCost nx nu S N A sys o tf ob1 = getCost nx nu S N A sys o tf ob2 := by
  obtain ⟨a, ha, e1, -, -, -, -, -, -, p1, -⟩ := compute_some h1
  obtain ⟨b, hb, e2, -, -, -, -, -, -, p2, -⟩ := compute_some h2
  have e : a = b := Option.some.inj (ha.symm.trans hb)
  unfold getCost
  rw [e1, e2, p1, p2, e]

/-- **C151 (negative).** After the second of two solves `getCost()` is the objective of the solution of the first one, if the path variable was not reset. -/
theorem cost_previous {A : Approx K} {sys : Sys K} {tf : K} {ob ob1 ob2 ob3 : Obj K} {x y : ℕ → K} {a : Args K} {mid : List (Op K)}
    (ha : solveArgs nx nu S N o ob x = some a) (h1 : computeControl nx nu S N o solver ob x = some ob1) (hm : ∀ op ∈ mid, quiet op)
    (h2 : run nx nu S N o solver ob1 mid = some ob2) (h3 : computeControl nx nu S N o solver ob2 y = some ob3)
    (hy : turn true (ob2.sx.a nx nx * o.resetAfter) (lin (nx + 2) ob2.sx.a y nx) = 0) :
    getCost nx nu S N A sys o tf ob3 = (nlp nx nu S N A sys o tf ob2.p (solver a ob.p).x).map Nmpc.Nlp.f := by
  obtain ⟨a', ha', -, hw, hres, -⟩ := compute_some h1
  have e : a' = a := Option.some.inj (ha'.symm.trans ha)
  subst e
  obtain ⟨b1, -, -, -, -, -, b7⟩ := run_quiet mid (fun op ho => quiet_noSolve (hm op ho)) h2
  obtain ⟨b, hb, e2, -, -, -, -, -, -, p2, -⟩ := compute_some h3
  obtain ⟨-, X, -, -, -, -, hwarm, -⟩ := args_some hb
  obtain ⟨-, g1, -⟩ := hwarm (b7 hm hw)
  rw [b1, hres, hy] at g1
  have hg : b.x0 = some (solver a' ob.p).x := by
    rw [g1]
    show some _ = _
    congr 1
    funext i
    show (if _ then (solver a' ob.p).x i + 0 else (solver a' ob.p).x i) = _
    rw [add_zero, ite_self]
  unfold getCost
  rw [e2, p2, hg]
  rfl

/-! ### C153: the closest point on the path -/

/-- Distance from the path, squared. -/
def dist2 (ny : ℕ) (pth : K → (ℕ → K) → ℕ → K) (pp pos : ℕ → K) (θ : K) : K := ∑ i ∈ Finset.range ny, (pth θ pp i - pos i) ^ 2

/-- The path parameters handed to the path. -/
def ppOf (o : Opts K) (ob : Obj K) : ℕ → K := fun i => if i < o.npp then ob.p (1 + i) else 0

/-- **C153 (negative).** `findClosestPointOnPath` throws for a path of one argument, the only kind that the constructor accepts without path parameters. -/
theorem closest_throws (sys : Sys K) (ob : Obj K) (pos : ℕ → K) (guess : K) (h : sys.path2 = none) : findClosest sys o ob pos guess = none := by
  unfold findClosest
  cases pathFn sys o with
  | none => rfl
  | some pth => rw [h]; rfl

theorem closest_eq {sys : Sys K} {pth : K → (ℕ → K) → ℕ → K} (hp : pathFn sys o = some pth) (h2 : sys.path2.isSome) (ob : Obj K) (pos : ℕ → K) (guess : K) :
    findClosest sys o ob pos guess = some (closestLoop sys.ny (fun θ i => pth θ (ppOf o ob) i - pos i) (fun θ i => sys.grad2 θ (ppOf o ob) i) 11 1 guess) := by
  obtain ⟨f, hf⟩ := Option.isSome_iff_exists.1 h2
  unfold findClosest
  rw [hp, hf]; rfl

theorem loop_stationary {ny : ℕ} {r g : K → ℕ → K} {θ : K} (h0 : ∑ i ∈ Finset.range ny, r θ i * g θ i = 0) (h1 : ∑ i ∈ Finset.range ny, g θ i * g θ i ≠ 0)
    (k : ℕ) : ∀ orth : K, closestLoop ny r g k orth θ = some θ := by
  induction k with
  | zero => intro _; rfl
  | succ k ih =>
    intro orth
    unfold closestLoop
    split
    · simp only []
      rw [if_neg h1, h0, neg_zero, zero_div, add_zero]
      exact ih _
    · rfl

/-- **C153 (negative).** A guess at which the distance is stationary is returned, be it a point of largest distance. -/
theorem closest_stationary {sys : Sys K} {pth : K → (ℕ → K) → ℕ → K} (hp : pathFn sys o = some pth) (h2 : sys.path2.isSome) (ob : Obj K) (pos : ℕ → K) (θ : K)
    (h0 : ∑ i ∈ Finset.range sys.ny, (pth θ (ppOf o ob) i - pos i) * sys.grad2 θ (ppOf o ob) i = 0)
    (h1 : ∑ i ∈ Finset.range sys.ny, sys.grad2 θ (ppOf o ob) i * sys.grad2 θ (ppOf o ob) i ≠ 0) : findClosest sys o ob pos θ = some (some θ) := by
  rw [closest_eq hp h2, loop_stationary h0 h1]

/-- **C153 (negative).** A guess at which the path has zero derivative gives NaN. -/
theorem closest_nan {sys : Sys K} {pth : K → (ℕ → K) → ℕ → K} (hp : pathFn sys o = some pth) (h2 : sys.path2.isSome) (ob : Obj K) (pos : ℕ → K) (θ : K)
    (h1 : ∀ i < sys.ny, sys.grad2 θ (ppOf o ob) i = 0) : findClosest sys o ob pos θ = some none := by
  rw [closest_eq hp h2]
  unfold closestLoop
  rw [if_pos (by norm_num)]
  simp only []
  rw [if_pos]
  exact Finset.sum_eq_zero fun i hi => by rw [h1 i (Finset.mem_range.1 hi), zero_mul]

/-- **C153.** For a straight path `c + θ b` with `b ≠ 0` the result is the closest point, from every guess. -/
theorem closest_affine {sys : Sys K} {pth : K → (ℕ → K) → ℕ → K} (hp : pathFn sys o = some pth) (h2 : sys.path2.isSome) (ob : Obj K) (pos : ℕ → K) (guess : K)
    (c b : ℕ → K) (hpth : ∀ θ, ∀ i < sys.ny, pth θ (ppOf o ob) i = c i + θ * b i) (hgrad : ∀ θ, ∀ i < sys.ny, sys.grad2 θ (ppOf o ob) i = b i)
    (hb : ∃ i < sys.ny, b i ≠ 0) :
    ∃ θ, findClosest sys o ob pos guess = some (some θ) ∧ ∀ θ', θ' ≠ θ → dist2 sys.ny pth (ppOf o ob) pos θ < dist2 sys.ny pth (ppOf o ob) pos θ' := by
  set B := ∑ i ∈ Finset.range sys.ny, b i * b i with hB
  have hB0 : 0 < B := by
    obtain ⟨i, hi, hne⟩ := hb
    refine Finset.sum_pos' (fun j _ => mul_self_nonneg _) ⟨i, Finset.mem_range.2 hi, lt_of_le_of_ne (mul_self_nonneg _) (mul_self_ne_zero.2 hne).symm⟩
  have hgg : ∀ θ, ∑ i ∈ Finset.range sys.ny, sys.grad2 θ (ppOf o ob) i * sys.grad2 θ (ppOf o ob) i = B := fun θ =>
    Finset.sum_congr rfl fun i hi => by rw [hgrad θ i (Finset.mem_range.1 hi)]
  have hdot : ∀ θ, ∑ i ∈ Finset.range sys.ny, (pth θ (ppOf o ob) i - pos i) * sys.grad2 θ (ppOf o ob) i
      = ∑ i ∈ Finset.range sys.ny, (c i - pos i) * b i + θ * B := fun θ => by
    rw [hB, Finset.mul_sum, ← Finset.sum_add_distrib]
    refine Finset.sum_congr rfl fun i hi => ?_
    rw [hgrad θ i (Finset.mem_range.1 hi), hpth θ i (Finset.mem_range.1 hi)]; ring
  set D := ∑ i ∈ Finset.range sys.ny, (c i - pos i) * b i with hD
  set t := guess + -(D + guess * B) / B with ht
  have ht0 : D + t * B = 0 := by rw [ht]; field_simp; ring
  refine ⟨t, ?_, fun θ' hne => ?_⟩
  · rw [closest_eq hp h2]
    unfold closestLoop
    rw [if_pos (by norm_num)]
    simp only []
    rw [hgg, if_neg hB0.ne', hdot, loop_stationary]
    · rw [← ht, hdot, ht0]
    · rw [hgg]; exact hB0.ne'
  · have e : dist2 sys.ny pth (ppOf o ob) pos θ' = dist2 sys.ny pth (ppOf o ob) pos t + 2 * (θ' - t) * (D + t * B) + (θ' - t) ^ 2 * B := by
      unfold dist2
      rw [hD, hB, Finset.mul_sum, ← Finset.sum_add_distrib, Finset.mul_sum, Finset.mul_sum, ← Finset.sum_add_distrib, ← Finset.sum_add_distrib]
      refine Finset.sum_congr rfl fun i hi => ?_
      rw [hpth _ i (Finset.mem_range.1 hi), hpth _ i (Finset.mem_range.1 hi)]; ring
    rw [e, ht0, mul_zero, add_zero]
    have : 0 < (θ' - t) ^ 2 := lt_of_le_of_ne (sq_nonneg _) (pow_ne_zero 2 (sub_ne_zero.2 hne)).symm
    nlinarith [mul_pos this hB0]

/-- **C153 (negative).** The loop stops by the orthogonality at the previous point, not at the one it returns. For the path `θ²` and the position 1, which is on
the path at `θ = 1`, small positive guesses give results as large as wanted. -/
theorem closest_far {sys : Sys K} {pth : K → (ℕ → K) → ℕ → K} (hp : pathFn sys o = some pth) (h2 : sys.path2.isSome) (ob : Obj K) (hny : sys.ny = 1)
    (hpth : ∀ θ, pth θ (ppOf o ob) 0 = θ ^ 2) (hgrad : ∀ θ, sys.grad2 θ (ppOf o ob) 0 = 2 * θ) (b : K) :
    dist2 sys.ny pth (ppOf o ob) (fun _ => 1) 1 = 0 ∧
    ∃ guess θ, 0 < guess ∧ guess ≤ 1 ∧ findClosest sys o ob (fun _ => 1) guess = some (some θ) ∧ b ≤ θ ∧ b ≤ dist2 sys.ny pth (ppOf o ob) (fun _ => 1) θ := by
  constructor
  · unfold dist2; rw [hny, Finset.sum_range_one, hpth]; ring
  set e : K := 1 / (40 + 2 * |b|) with he
  have hb := abs_nonneg b
  have hden : 0 < 40 + 2 * |b| := by linarith
  have e0 : 0 < e := by rw [he]; exact one_div_pos.2 hden
  have e1 : e ≤ 1 / 40 := by rw [he]; exact one_div_le_one_div_of_le (by norm_num) (by linarith)
  have hinv : e * (40 + 2 * |b|) = 1 := by rw [he]; exact one_div_mul_cancel hden.ne'
  have hrun : findClosest sys o ob (fun _ => 1) e = some (some (e + -((e ^ 2 - 1) * (2 * e)) / (2 * e * (2 * e)))) := by
    rw [closest_eq hp h2]
    unfold closestLoop
    rw [if_pos (by norm_num)]
    simp only []
    rw [hny, Finset.sum_range_one, Finset.sum_range_one, hpth, hgrad, if_neg (by positivity)]
    unfold closestLoop
    have : |(e ^ 2 - 1) * (2 * e)| < 1 / 10 := by
      rw [abs_lt]; constructor <;> nlinarith
    rw [if_neg (not_le.2 this)]
  set t : K := e + -((e ^ 2 - 1) * (2 * e)) / (2 * e * (2 * e)) with ht
  have ht' : 2 * e * t = e ^ 2 + 1 := by rw [ht]; field_simp; ring
  have hge : 20 + |b| ≤ t := by
    have h1 : 2 * e * (20 + |b|) = 1 := by linear_combination hinv
    have h2 : 2 * e * (20 + |b|) ≤ 2 * e * t := by rw [h1, ht']; nlinarith
    exact le_of_mul_le_mul_left h2 (by linarith)
  refine ⟨e, t, e0, by linarith, hrun, by linarith [le_abs_self b], ?_⟩
  unfold dist2
  rw [hny, Finset.sum_range_one, hpth]
  have h1 : 20 + |b| ≤ t ^ 2 - 1 := by nlinarith
  nlinarith [le_abs_self b]

end Field

variable {nx nu S N : ℕ} {o : Opts ℝ} {solver : Args ℝ → (ℕ → ℝ) → Res ℝ}

/-- **C151.** `getPathError()` is the distance between path and output at the initial time of the last plan: path variable and states are those of the plan,
the path parameters the last ones set. -/
theorem path_error {sys : Sys ℝ} {ob ob' : Obj ℝ} {ops : List (Op ℝ)} (pth : ℝ → (ℕ → ℝ) → ℕ → ℝ) (hg : GoodScaling nx nu o)
    (hc : construct nx nu sys o = some ob) (hs : ∀ op ∈ ops, keepsScaling op) (hr : run nx nu S N o solver ob ops = some ob') :
    (∀ T, ob'.traj = some T → getPathError nx nu S N sys o pth ob'
      = Real.sqrt (∑ i ∈ Finset.range sys.ny, (pth (T (S * N) nx) (fun i => ob'.p (1 + i)) i - sys.out (cut nx (T (S * N))) i) ^ 2)) ∧
    (ob'.traj = none → getPathError nx nu S N sys o pth ob' = 0) := by
  obtain ⟨-, hob, -⟩ := construct_some hc
  obtain ⟨b1, -⟩ := run_box ops hs hr
  have hsx : ob'.sx = (initSX nx o).1 := b1.trans (congrArg Nmpc.Obj.sx hob)
  constructor
  · intro T hT
    have : pathResidual nx nu S N sys o pth ob' = some fun i => pth (T (S * N) nx) (fun i => ob'.p (1 + i)) i - sys.out (cut nx (T (S * N))) i := by
      unfold pathResidual
      rw [hT]
      show some (residual nx sys o pth _ (ob'.sx.app (nx + 2) (T (S * N)))) = _
      rw [hsx, residual_good hg]
    unfold getPathError
    rw [this]
  · intro hT
    have : pathResidual nx nu S N sys o pth ob' = none := by unfold pathResidual; rw [hT]; rfl
    unfold getPathError
    rw [this]

/-! ### Concrete cases -/

/-- The straight path `(θ, 1 + 2 θ)`, callable with one or two arguments. -/
def exLine : Sys ℚ := ⟨2, fun _ u => u, fun x => x, some fun θ i => if i = 0 then θ else 1 + 2 * θ, some fun θ _ i => if i = 0 then θ else 1 + 2 * θ,
  fun _ _ i => if i = 0 then 1 else 2⟩

/-- The parabola `(θ, θ²)`. -/
def exParabola : Sys ℚ := { exLine with path1 := some fun θ i => if i = 0 then θ else θ ^ 2, path2 := some fun θ _ i => if i = 0 then θ else θ ^ 2,
                                        grad2 := fun θ _ i => if i = 0 then 1 else 2 * θ }

/-- The closest point of the line to `(5, 1)` is at `θ = 1`; from the top of the distance function, `θ = 0` for the position `(0, 5)` and the parabola, the result
is that point, with squared distance 25, although `θ = 2` has squared distance 5. -/
example : (construct 2 1 exLine ({ resetAfter := 6 } : Opts ℚ)).bind (fun ob => findClosest exLine { resetAfter := 6 } ob (exX 5 1 0) 40) = some (some 1) ∧
    (construct 2 1 exParabola ({ resetAfter := 6 } : Opts ℚ)).bind (fun ob => findClosest exParabola { resetAfter := 6 } ob (exX 0 5 0) 0) = some (some 0) ∧
    dist2 2 (fun θ _ i => if i = 0 then θ else θ ^ 2) (fun _ => 0) (exX 0 5 0) (0 : ℚ) = 25 ∧
    dist2 2 (fun θ _ i => if i = 0 then θ else θ ^ 2) (fun _ => 0) (exX 0 5 0) (2 : ℚ) = 5 := by decide +kernel

/-- Path parameters: without defaults the constructor throws; a single number stands for all; a vector of another length throws. -/
example : (construct 2 1 exLine ({ resetAfter := 6, npp := 3 } : Opts ℚ)).isNone ∧
    ((construct 2 1 exLine ({ resetAfter := 6, npp := 3, defaults := some fun i => i } : Opts ℚ)).map fun ob => (List.range 4).map ob.p) = some [1, 0, 1, 2] ∧
    ((do let ob ← construct 2 1 exLine ({ resetAfter := 6, npp := 3, defaults := some fun i => i } : Opts ℚ)
         let ob ← run 2 1 1 1 ({ resetAfter := 6, npp := 3 } : Opts ℚ) exSolver ob [.setPathParameters 1 fun _ => 9, .setReferenceVelocity 4]
         some ((List.range 4).map ob.p)) : Option (List ℚ)) = some [4, 9, 9, 9] ∧
    ((do let ob ← construct 2 1 exLine ({ resetAfter := 6, npp := 3, defaults := some fun i => i } : Opts ℚ)
         run 2 1 1 1 ({ resetAfter := 6, npp := 3 } : Opts ℚ) exSolver ob [.setPathParameters 2 fun _ => 9]) : Option (Obj ℚ)).isNone := by decide +kernel

end PolyMPC.Nmpf
