import Verif.Props.NmpfScale

/-! # The path-following controller `nmpf`: sequences of calls -/

namespace PolyMPC.Nmpf
open Ocp CasCheb GenOcp Spec Polynomial
open Nmpc (Mat eye Args Res put rep wsum weight store coldGuess boxX boxU after map_some boxX_some boxU_some put_in put_out app_lin lin_congr lin_inv eye_app)

set_option linter.unusedSectionVars false

section Field
variable {K : Type} [Field K] [LinearOrder K] [IsStrictOrderedRing K] {nx nu S N : ℕ} {o : Opts K} {solver : Args K → (ℕ → K) → Res K}

/-! ### Vocabulary of call sequences -/

/-- The argument of a call to the given setter. -/
def lbxOf : Op K → Option (ℕ → Option K) | .setLBX b => some b | _ => none
def ubxOf : Op K → Option (ℕ → Option K) | .setUBX b => some b | _ => none
def lbuOf : Op K → Option (ℕ → Option K) | .setLBU b => some b | _ => none
def ubuOf : Op K → Option (ℕ → Option K) | .setUBU b => some b | _ => none
def velOf : Op K → Option K | .setReferenceVelocity v => some v | _ => none

/-- The argument of the last call to a setter. -/
def lastSet {T : Type} (g : Op K → Option T) (ops : List (Op K)) : Option T := (ops.filterMap g).getLast?

/-- Calls that leave the scaling alone. -/
def keepsScaling : Op K → Prop
  | .setStateScaling .. => False
  | .setControlScaling .. => False
  | _ => True

/-- Calls other than `computeControl`. -/
def noSolve : Op K → Prop | .computeControl _ => False | _ => True

/-- Calls other than `computeControl`, `disableWarmStart`. -/
def quiet : Op K → Prop | .computeControl _ => False | .disableWarmStart => False | _ => True

theorem quiet_noSolve {op : Op K} (h : quiet op) : noSolve op := by cases op <;> first | exact h | trivial

theorem run_cons (ob : Obj K) (op : Op K) (ops : List (Op K)) {ob' : Obj K} (h : run nx nu S N o solver ob (op :: ops) = some ob') :
    ∃ ob1, step nx nu S N o solver ob op = some ob1 ∧ run nx nu S N o solver ob1 ops = some ob' := Option.bind_eq_some_iff.1 h

/-- What a solve does to the object. -/
theorem compute_some {ob ob' : Obj K} {x : ℕ → K} (h : computeControl nx nu S N o solver ob x = some ob') :
    ∃ a, solveArgs nx nu S N o ob x = some a ∧ ob'.arg = a ∧ ob'.warm = true ∧ ob'.res = some (solver a ob.p) ∧ ob'.sx = ob.sx ∧ ob'.isx = ob.isx ∧
      ob'.su = ob.su ∧ ob'.isu = ob.isu ∧ ob'.p = ob.p ∧
      ob'.traj = some (fun k => ob.isx.app (nx + 2) fun i => (solver a ob.p).x (k * (nx + 2) + i)) ∧
      ob'.ctrl = some (fun k => ob.isu.app (nu + 1) fun i => (solver a ob.p).x ((S * N + 1) * (nx + 2) + k * (nu + 1) + i)) := by
  unfold computeControl at h
  obtain ⟨a, h1, h2⟩ := Option.bind_eq_some_iff.1 h
  obtain ⟨b, h3, h4⟩ := Option.bind_eq_some_iff.1 h2
  refine ⟨a, h1, ?_⟩
  unfold store at h3
  split at h3
  · cases h3; cases h4; exact ⟨rfl, rfl, rfl, rfl, rfl, rfl, rfl, rfl, rfl, rfl⟩
  · cases h3

/-! ### Bounds of the initial node -/

theorem pin_out (sx : Mat K) (e : K) (X0 : ℕ → K) (old : ℕ → Option K) {r : ℕ} (h : r < S * N * (nx + 2) ∨ S * N * (nx + 2) + (nx + 2) ≤ r) :
    pin nx S N sx e X0 old r = old r := by
  unfold pin
  rw [put_out _ _ _ _ (by omega), put_out _ _ _ _ (by omega), put_out _ _ _ _ (by omega)]

theorem pin_x (sx : Mat K) (e : K) (X0 : ℕ → K) (old : ℕ → Option K) {i : ℕ} (hi : i < nx) :
    pin nx S N sx e X0 old (S * N * (nx + 2) + i) = some (X0 i) := by
  unfold pin
  rw [put_out _ _ _ _ (by omega), put_out _ _ _ _ (by omega), put_in _ _ _ _ (by omega)]

theorem pin_th (sx : Mat K) (e : K) (X0 : ℕ → K) (old : ℕ → Option K) :
    pin nx S N sx e X0 old (S * N * (nx + 2) + nx) = some (X0 nx + sx.a nx nx * e) := by
  unfold pin
  rw [put_out _ _ _ _ (by omega)]
  exact put_in _ (S * N * (nx + 2) + nx) 1 _ (i := 0) (by omega)

theorem pin_om (sx : Mat K) (e : K) (X0 : ℕ → K) (old : ℕ → Option K) :
    pin nx S N sx e X0 old (S * N * (nx + 2) + (nx + 1)) = some (X0 (nx + 1) + sx.a (nx + 1) (nx + 1) * e) := by
  unfold pin
  exact put_in _ (S * N * (nx + 2) + nx + 1) 1 _ (i := 0) (by omega)

/-- The correction of the path variable `θ` by one period `c`: only in a warm start, and only outside `[-c, c]`. -/
def turn (warm : Bool) (c θ : K) : K := if warm then if c < θ then -c else if θ < -c then c else 0 else 0

/-- The arguments of a solve: the scaled initial state, corrected, pins the states and centres the path variables; a warm start takes over the last solution
with the same correction of the path variable, a cold start the constant guess. -/
theorem args_some {ob : Obj K} {x : ℕ → K} {a : Args K} (h : solveArgs nx nu S N o ob x = some a) : ob.sx.n = nx + 2 ∧
    ∃ X : ℕ → K, (∀ i, i ≠ nx → X i = lin (nx + 2) ob.sx.a x i) ∧
      X nx = lin (nx + 2) ob.sx.a x nx + turn ob.warm (ob.sx.a nx nx * o.resetAfter) (lin (nx + 2) ob.sx.a x nx) ∧
      a.lbx = pin nx S N ob.sx (-o.flex) X ob.arg.lbx ∧ a.ubx = pin nx S N ob.sx o.flex X ob.arg.ubx ∧
      (ob.warm = true → (turn true (ob.sx.a nx nx * o.resetAfter) (lin (nx + 2) ob.sx.a x nx) ≠ 0 → ob.res.isSome) ∧
        a.x0 = ob.res.map (fun r => shiftTheta nx (S * N + 1) (turn true (ob.sx.a nx nx * o.resetAfter) (lin (nx + 2) ob.sx.a x nx)) r.x) ∧
        a.lamG0 = ob.res.map Res.lamG ∧ a.lamX0 = ob.res.map Res.lamX) ∧
      (ob.warm = false → coldGuess (aug nx nu S N) ob.arg.x0 (lin (nx + 2) ob.sx.a x) = some a.x0 ∧ a.lamG0 = ob.arg.lamG0 ∧ a.lamX0 = ob.arg.lamX0) := by
  unfold solveArgs at h
  split at h
  next hn =>
    refine ⟨hn, ?_⟩
    simp only [] at h
    rw [app_lin hn] at h
    have hshift0 : ∀ v : ℕ → K, shiftTheta nx (S * N + 1) 0 v = v := fun v => by
      funext i; unfold shiftTheta; rw [add_zero]; split <;> rfl
    split at h
    next hw =>
      obtain ⟨w, hwr, rfl⟩ := map_some h
      unfold wrap at hwr
      simp only [] at hwr
      rw [hw]
      split at hwr
      next h1 =>
        obtain ⟨r, hr, rfl⟩ := map_some hwr
        have ht : turn true (ob.sx.a nx nx * o.resetAfter) (lin (nx + 2) ob.sx.a x nx) = -(ob.sx.a nx nx * o.resetAfter) := by
          unfold turn; rw [if_pos rfl, if_pos h1]
        refine ⟨put (lin (nx + 2) ob.sx.a x) nx 1 fun _ => lin (nx + 2) ob.sx.a x nx + -(ob.sx.a nx nx * o.resetAfter),
          fun i hi => put_out _ nx 1 _ (by omega), ?_, rfl, rfl, fun _ => ⟨fun _ => ?_, ?_, ?_, ?_⟩, fun hf => by cases hf⟩
        · rw [ht]; exact put_in _ nx 1 _ (i := 0) (by omega)
        · rw [hr]; rfl
        · rw [ht, hr]; rfl
        · rw [hr]; rfl
        · rw [hr]; rfl
      next h1 =>
        split at hwr
        next h2 =>
          obtain ⟨r, hr, rfl⟩ := map_some hwr
          have ht : turn true (ob.sx.a nx nx * o.resetAfter) (lin (nx + 2) ob.sx.a x nx) = ob.sx.a nx nx * o.resetAfter := by
            unfold turn; rw [if_pos rfl, if_neg h1, if_pos h2]
          refine ⟨put (lin (nx + 2) ob.sx.a x) nx 1 fun _ => lin (nx + 2) ob.sx.a x nx + ob.sx.a nx nx * o.resetAfter,
            fun i hi => put_out _ nx 1 _ (by omega), ?_, rfl, rfl, fun _ => ⟨fun _ => ?_, ?_, ?_, ?_⟩, fun hf => by cases hf⟩
          · rw [ht]; exact put_in _ nx 1 _ (i := 0) (by omega)
          · rw [hr]; rfl
          · rw [ht, hr]; rfl
          · rw [hr]; rfl
          · rw [hr]; rfl
        next h2 =>
          cases hwr
          have ht : turn true (ob.sx.a nx nx * o.resetAfter) (lin (nx + 2) ob.sx.a x nx) = 0 := by
            unfold turn; rw [if_pos rfl, if_neg h1, if_neg h2]
          refine ⟨_, fun i hi => rfl, ?_, rfl, rfl, fun _ => ⟨fun hne => absurd ht hne, ?_, rfl, rfl⟩, fun hf => by cases hf⟩
          · rw [ht, add_zero]
          · rw [ht]; simp only [hshift0]
    next hw =>
      obtain ⟨g, hg, rfl⟩ := map_some h
      have hw : ob.warm = false := by simpa using hw
      rw [hw]
      refine ⟨_, fun i hi => rfl, ?_, rfl, rfl, fun hf => (by cases hf), fun _ => ⟨hg, rfl, rfl⟩⟩
      unfold turn
      rw [if_neg Bool.false_ne_true, add_zero]
  · cases h

/-! ### C149: the box of a solve -/

theorem lastSet_cons (g : Op K → Option (ℕ → Option K)) (op : Op K) (ops : List (Op K)) (s : Mat K) (n i : ℕ) (old : Option K) :
    after s n old (lastSet g (op :: ops)) i = after s n (after s n old (g op) i) (lastSet g ops) i := by
  unfold lastSet
  rw [List.filterMap_cons]
  cases hg : g op with
  | none => rfl
  | some b =>
    simp only []
    rw [List.getLast?_cons]
    cases h : (ops.filterMap g).getLast? with
    | none => rfl
    | some c => rfl

theorem setVel_some {ob ob' : Obj K} {v : K} (h : setVel nx ob v = some ob') :
    nx + 1 < ob.sx.n ∧ ob' = { ob with p := put ob.p 0 1 fun _ => ob.sx.a (nx + 1) (nx + 1) * v } := by
  unfold setVel at h
  split at h
  next hn => exact ⟨hn, (Option.some.inj h).symm⟩
  · cases h

theorem setPath_some {npp n : ℕ} {ob ob' : Obj K} {v : ℕ → K} (h : setPath npp ob n v = some ob') :
    (n = npp ∧ ob' = { ob with p := put ob.p 1 npp v }) ∨ (n = 1 ∧ ob' = { ob with p := put ob.p 1 npp fun _ => v 0 }) := by
  unfold setPath at h
  split at h
  next hn => exact Or.inl ⟨hn, (Option.some.inj h).symm⟩
  next hn =>
    split at h
    next h1 => exact Or.inr ⟨h1, (Option.some.inj h).symm⟩
    · cases h

/-- The box for states of all nodes but the initial one and for controls. -/
def boxIs (nx nu S N : ℕ) (sx su : Mat K) (oldL oldU lbx ubx : ℕ → Option K) (lx ux lu uu : Option (ℕ → Option K)) : Prop :=
  (∀ k < S * N, ∀ i < nx + 2, lbx (k * (nx + 2) + i) = after sx (nx + 2) (oldL (k * (nx + 2) + i)) lx i ∧
    ubx (k * (nx + 2) + i) = after sx (nx + 2) (oldU (k * (nx + 2) + i)) ux i) ∧
  ∀ k < S * N + 1, ∀ i < nu + 1,
    lbx ((nx + 2) * (S * N + 1) + (k * (nu + 1) + i)) = after su (nu + 1) (oldL ((nx + 2) * (S * N + 1) + (k * (nu + 1) + i))) lu i ∧
    ubx ((nx + 2) * (S * N + 1) + (k * (nu + 1) + i)) = after su (nu + 1) (oldU ((nx + 2) * (S * N + 1) + (k * (nu + 1) + i))) uu i

theorem ne_idx {k i : ℕ} (hk : k < S * N) (hi : i < nx + 2) : k * (nx + 2) + i < S * N * (nx + 2) ∧ k * (nx + 2) + i < (nx + 2) * (S * N + 1) := by
  have h1 := blk_le (m := S * N) hi hk
  refine ⟨h1, ?_⟩
  rw [Nat.mul_comm (nx + 2), Nat.succ_mul]; omega

theorem end_idx : S * N * (nx + 2) + (nx + 2) = (nx + 2) * (S * N + 1) := by rw [Nat.mul_comm (nx + 2), Nat.succ_mul]

theorem un_idx {k i : ℕ} (hk : k < S * N + 1) (hi : i < nu + 1) : k * (nu + 1) + i < (nu + 1) * (S * N + 1) := by
  rw [Nat.mul_comm (nu + 1)]; exact blk_le hi hk

theorem step_box {ob ob' : Obj K} {op : Op K} (hk : keepsScaling op) (h : step nx nu S N o solver ob op = some ob') :
    ob'.sx = ob.sx ∧ ob'.su = ob.su ∧ ob'.isx = ob.isx ∧ ob'.isu = ob.isu ∧
    boxIs nx nu S N ob.sx ob.su ob.arg.lbx ob.arg.ubx ob'.arg.lbx ob'.arg.ubx (lbxOf op) (ubxOf op) (lbuOf op) (ubuOf op) := by
  have hrx : ∀ (v : ℕ → Option K) {k i : ℕ}, i < nx + 2 → rep (nx + 2) v (k * (nx + 2) + i) = v i := fun v k i hi => by
    unfold rep; rw [(blk_mod hi).1]
  have hru : ∀ (v : ℕ → Option K) {k i : ℕ}, i < nu + 1 → rep (nu + 1) v (k * (nu + 1) + i) = v i := fun v k i hi => by
    unfold rep; rw [(blk_mod hi).1]
  have same : boxIs nx nu S N ob.sx ob.su ob.arg.lbx ob.arg.ubx ob.arg.lbx ob.arg.ubx none none none none :=
    ⟨fun k _ i _ => ⟨rfl, rfl⟩, fun k _ i _ => ⟨rfl, rfl⟩⟩
  have bx : ∀ {old b v : ℕ → Option K}, boxX (aug nx nu S N) ob.sx old b = some v →
      v = put old 0 ((nx + 2) * (S * N + 1)) (rep (nx + 2) (ob.sx.bnd (nx + 2) b)) := fun h => boxX_some h
  have bu : ∀ {old b v : ℕ → Option K}, boxU (aug nx nu S N) ob.su old b = some v →
      v = put old ((nx + 2) * (S * N + 1)) ((nu + 1) * (S * N + 1)) (rep (nu + 1) (ob.su.bnd (nu + 1) b)) := fun h => boxU_some h
  have px_ : ∀ (old b : ℕ → Option K) {k i : ℕ}, k < S * N → i < nx + 2 →
      put old 0 ((nx + 2) * (S * N + 1)) (rep (nx + 2) (ob.sx.bnd (nx + 2) b)) (k * (nx + 2) + i) = ob.sx.bnd (nx + 2) b i := fun old b k i hk hi => by
    have := put_in old 0 ((nx + 2) * (S * N + 1)) (rep (nx + 2) (ob.sx.bnd (nx + 2) b)) (ne_idx hk hi).2
    rw [Nat.zero_add, hrx _ hi] at this
    exact this
  cases op with
  | setLBX b =>
    obtain ⟨v, hv, rfl⟩ := map_some h
    have hv := bx hv
    refine ⟨rfl, rfl, rfl, rfl, fun k hk i hi => ⟨?_, rfl⟩, fun k hk i hi => ⟨?_, rfl⟩⟩
    · show v _ = _
      rw [hv, px_ _ _ hk hi]; rfl
    · show v _ = _
      rw [hv, put_out _ _ _ _ (by omega)]; rfl
  | setUBX b =>
    obtain ⟨v, hv, rfl⟩ := map_some h
    have hv := bx hv
    refine ⟨rfl, rfl, rfl, rfl, fun k hk i hi => ⟨rfl, ?_⟩, fun k hk i hi => ⟨rfl, ?_⟩⟩
    · show v _ = _
      rw [hv, px_ _ _ hk hi]; rfl
    · show v _ = _
      rw [hv, put_out _ _ _ _ (by omega)]; rfl
  | setLBU b =>
    obtain ⟨v, hv, rfl⟩ := map_some h
    have hv := bu hv
    refine ⟨rfl, rfl, rfl, rfl, fun k hk i hi => ⟨?_, rfl⟩, fun k hk i hi => ⟨?_, rfl⟩⟩
    · show v _ = _
      rw [hv, put_out _ _ _ _ (Or.inl (ne_idx hk hi).2)]; rfl
    · show v _ = _
      rw [hv, put_in _ _ _ _ (un_idx hk hi), hru _ hi]; rfl
  | setUBU b =>
    obtain ⟨v, hv, rfl⟩ := map_some h
    have hv := bu hv
    refine ⟨rfl, rfl, rfl, rfl, fun k hk i hi => ⟨rfl, ?_⟩, fun k hk i hi => ⟨rfl, ?_⟩⟩
    · show v _ = _
      rw [hv, put_out _ _ _ _ (Or.inl (ne_idx hk hi).2)]; rfl
    · show v _ = _
      rw [hv, put_in _ _ _ _ (un_idx hk hi), hru _ hi]; rfl
  | setStateScaling s si => exact hk.elim
  | setControlScaling s si => exact hk.elim
  | setReferenceVelocity v => obtain ⟨-, rfl⟩ := setVel_some h; exact ⟨rfl, rfl, rfl, rfl, same⟩
  | setPathParameters n v => rcases setPath_some h with ⟨-, rfl⟩ | ⟨-, rfl⟩ <;> exact ⟨rfl, rfl, rfl, rfl, same⟩
  | enableWarmStart => cases h; exact ⟨rfl, rfl, rfl, rfl, same⟩
  | disableWarmStart => cases h; exact ⟨rfl, rfl, rfl, rfl, same⟩
  | computeControl x =>
    obtain ⟨a, ha, h1, -, -, h4, h5, h6, h7, -⟩ := compute_some h
    obtain ⟨-, X, -, -, b1, b2, -⟩ := args_some ha
    refine ⟨h4, h6, h5, h7, fun k hk i hi => ?_, fun k hk i hi => ?_⟩
    · rw [h1, b1, b2, pin_out _ _ _ _ (Or.inl (ne_idx hk hi).1), pin_out _ _ _ _ (Or.inl (ne_idx hk hi).1)]
      exact ⟨rfl, rfl⟩
    · have := end_idx (nx := nx) (S := S) (N := N)
      rw [h1, b1, b2, pin_out _ _ _ _ (by omega), pin_out _ _ _ _ (by omega)]
      exact ⟨rfl, rfl⟩

theorem run_box (ops : List (Op K)) : ∀ {ob ob' : Obj K}, (∀ op ∈ ops, keepsScaling op) → run nx nu S N o solver ob ops = some ob' →
    ob'.sx = ob.sx ∧ ob'.su = ob.su ∧ ob'.isx = ob.isx ∧ ob'.isu = ob.isu ∧
    boxIs nx nu S N ob.sx ob.su ob.arg.lbx ob.arg.ubx ob'.arg.lbx ob'.arg.ubx (lastSet lbxOf ops) (lastSet ubxOf ops) (lastSet lbuOf ops)
      (lastSet ubuOf ops) := by
  induction ops with
  | nil => intro ob ob' _ h; cases h; exact ⟨rfl, rfl, rfl, rfl, fun k _ i _ => ⟨rfl, rfl⟩, fun k _ i _ => ⟨rfl, rfl⟩⟩
  | cons op ops ih =>
    intro ob ob' hs h
    obtain ⟨ob1, h1, h2⟩ := run_cons ob op ops h
    obtain ⟨a1, a2, a3, a4, a5, a6⟩ := step_box (hs op List.mem_cons_self) h1
    obtain ⟨b1, b2, b3, b4, b5, b6⟩ := ih (fun o ho => hs o (List.mem_cons_of_mem _ ho)) h2
    refine ⟨b1.trans a1, b2.trans a2, b3.trans a3, b4.trans a4, fun k hk i hi => ?_, fun k hk i hi => ?_⟩
    · rw [lastSet_cons, lastSet_cons, (b5 k hk i hi).1, (b5 k hk i hi).2, (a5 k hk i hi).1, (a5 k hk i hi).2, a1]
      exact ⟨rfl, rfl⟩
    · rw [lastSet_cons, lastSet_cons, (b6 k hk i hi).1, (b6 k hk i hi).2, (a6 k hk i hi).1, (a6 k hk i hi).2, a2]
      exact ⟨rfl, rfl⟩

theorem construct_some {sys : Sys K} {ob : Obj K} (h : construct nx nu sys o = some ob) :
    (pathFn sys o).isSome ∧ ob.toObj = ⟨(initSX nx o).1, (initSX nx o).2, (initSU nu o).1, (initSU nu o).2,
      ⟨fun _ => none, fun _ => none, some fun _ => 0, none, none⟩, false, none, none, none⟩ ∧ nx + 1 < (initSX nx o).1.n ∧
    ob.p 0 = (initSX nx o).1.a (nx + 1) (nx + 1) ∧ (∀ v, o.defaults = some v → ∀ i < o.npp, ob.p (1 + i) = v i) ∧ (o.npp = 0 ∨ o.defaults.isSome) := by
  unfold construct at h
  obtain ⟨pth, h1, h⟩ := Option.bind_eq_some_iff.1 h
  obtain ⟨b, h2, h⟩ := Option.bind_eq_some_iff.1 h
  obtain ⟨hn, rfl⟩ := setVel_some h2
  refine ⟨by rw [h1]; rfl, ?_⟩
  have p0 : ∀ w : ℕ → K, put (put (fun _ => (0 : K)) 0 1 fun _ => (initSX nx o).1.a (nx + 1) (nx + 1) * 1) 1 o.npp w 0
      = (initSX nx o).1.a (nx + 1) (nx + 1) := fun w => by
    rw [put_out _ _ _ _ (Or.inl (by omega)), mul_one]
    exact put_in (fun _ => (0 : K)) 0 1 _ (i := 0) (by omega)
  cases hd : o.defaults with
  | some v =>
    rw [hd] at h
    rcases setPath_some h with ⟨-, rfl⟩ | ⟨e, rfl⟩
    · refine ⟨rfl, hn, p0 v, fun v' hv i hi => ?_, Or.inr rfl⟩
      cases hv
      exact put_in _ 1 o.npp v hi
    · refine ⟨rfl, hn, p0 (fun _ => v 0), fun v' hv i hi => ?_, Or.inr rfl⟩
      cases hv
      obtain rfl : i = 0 := by omega
      exact put_in _ 1 o.npp _ hi
  | none =>
    rw [hd] at h
    rcases setPath_some h with ⟨e, rfl⟩ | ⟨e, -⟩
    · exact ⟨rfl, hn, p0 (fun _ => 0), fun v' hv => (by cases hv), Or.inl e.symm⟩
    · cases e

/-- **C149.** The box with which `computeControl(x)` solves, after any sequence of calls that leaves the scaling alone. All nodes but the initial one are
within the last bounds set with `setLBX`, `setUBX`, controls and acceleration of the path variable within those of `setLBU`, `setUBU`. At the initial node the
states are `x`, whatever the bounds set; path variable and its velocity may differ from those given by the flexibility, whatever the bounds set, where the
path variable given is first corrected by `turn`. Everything is scaled. -/
theorem solve_box {sys : Sys K} {ob ob' : Obj K} {ops : List (Op K)} {x : ℕ → K} {a : Args K} (hc : construct nx nu sys o = some ob)
    (hs : ∀ op ∈ ops, keepsScaling op) (hr : run nx nu S N o solver ob ops = some ob') (ha : solveArgs nx nu S N o ob' x = some a) :
    let sx := (initSX nx o).1
    let X := lin (nx + 2) sx.a x
    (∀ k < S * N, ∀ i < nx + 2, a.lbx (k * (nx + 2) + i) = after sx (nx + 2) none (lastSet lbxOf ops) i ∧
      a.ubx (k * (nx + 2) + i) = after sx (nx + 2) none (lastSet ubxOf ops) i) ∧
    (∀ i < nx, a.lbx (S * N * (nx + 2) + i) = some (X i) ∧ a.ubx (S * N * (nx + 2) + i) = some (X i)) ∧
    (a.lbx (S * N * (nx + 2) + nx) = some (X nx + turn ob'.warm (sx.a nx nx * o.resetAfter) (X nx) - sx.a nx nx * o.flex) ∧
      a.ubx (S * N * (nx + 2) + nx) = some (X nx + turn ob'.warm (sx.a nx nx * o.resetAfter) (X nx) + sx.a nx nx * o.flex)) ∧
    (a.lbx (S * N * (nx + 2) + (nx + 1)) = some (X (nx + 1) - sx.a (nx + 1) (nx + 1) * o.flex) ∧
      a.ubx (S * N * (nx + 2) + (nx + 1)) = some (X (nx + 1) + sx.a (nx + 1) (nx + 1) * o.flex)) ∧
    (∀ k < S * N + 1, ∀ i < nu + 1, a.lbx ((nx + 2) * (S * N + 1) + (k * (nu + 1) + i)) = after (initSU nu o).1 (nu + 1) none (lastSet lbuOf ops) i ∧
      a.ubx ((nx + 2) * (S * N + 1) + (k * (nu + 1) + i)) = after (initSU nu o).1 (nu + 1) none (lastSet ubuOf ops) i) := by
  obtain ⟨-, hob, -⟩ := construct_some hc
  obtain ⟨b1, b2, -, -, b5, b6⟩ := run_box ops hs hr
  have hsx : ob.sx = (initSX nx o).1 := congrArg Nmpc.Obj.sx hob
  have hsu : ob.su = (initSU nu o).1 := congrArg Nmpc.Obj.su hob
  have hl : ob.arg.lbx = fun _ => none := congrArg (fun q : Nmpc.Obj K => q.arg.lbx) hob
  have hu : ob.arg.ubx = fun _ => none := congrArg (fun q : Nmpc.Obj K => q.arg.ubx) hob
  rw [hsx, hl, hu] at b5
  rw [hsu, hl, hu] at b6
  obtain ⟨-, X, x1, x2, e1, e2, -⟩ := args_some ha
  rw [b1, hsx] at x1 x2 e1 e2
  rw [e1, e2]
  refine ⟨fun k hk i hi => ?_, fun i hi => ?_, ⟨?_, ?_⟩, ⟨?_, ?_⟩, fun k hk i hi => ?_⟩
  · rw [pin_out _ _ _ _ (Or.inl (ne_idx hk hi).1), pin_out _ _ _ _ (Or.inl (ne_idx hk hi).1)]
    exact b5 k hk i hi
  · rw [pin_x _ _ _ _ hi, pin_x _ _ _ _ hi, x1 i (by omega)]
    exact ⟨rfl, rfl⟩
  · rw [pin_th, x2]; congr 1; ring
  · rw [pin_th, x2]
  · rw [pin_om, x1 _ (by omega)]; congr 1; ring
  · rw [pin_om, x1 _ (by omega)]
  · have := end_idx (nx := nx) (S := S) (N := N)
    rw [pin_out _ _ _ _ (by omega), pin_out _ _ _ _ (by omega)]
    exact b6 k hk i hi

end Field
end PolyMPC.Nmpf
