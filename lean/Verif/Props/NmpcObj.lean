import Verif.Props.NmpcScale

/-! # The tracking controller `nmpc`: sequences of calls -/

namespace PolyMPC.Nmpc
open Ocp CasCheb GenOcp Spec Polynomial

set_option linter.unusedSectionVars false

section Field
variable {K : Type} [Field K] [DecidableEq K] {d : Dims} {solver : Args K → Res K}

/-! ### Vocabulary of call sequences -/

/-- The argument of a call to the given setter. -/
def lbxOf : Op K → Option (ℕ → Option K) | .setLBX b => some b | _ => none
def ubxOf : Op K → Option (ℕ → Option K) | .setUBX b => some b | _ => none
def lbuOf : Op K → Option (ℕ → Option K) | .setLBU b => some b | _ => none
def ubuOf : Op K → Option (ℕ → Option K) | .setUBU b => some b | _ => none

/-- The argument of the last call to a setter. -/
def lastSet (g : Op K → Option (ℕ → Option K)) (ops : List (Op K)) : Option (ℕ → Option K) := (ops.filterMap g).getLast?

/-- Calls that leave the scaling alone. -/
def keepsScaling : Op K → Prop
  | .setStateScaling .. => False
  | .setControlScaling .. => False
  | _ => True

/-- Calls other than `computeControl`. -/
def noSolve : Op K → Prop | .computeControl _ => False | _ => True

/-- Calls other than `computeControl`, `disableWarmStart`. -/
def quiet : Op K → Prop | .computeControl _ => False | .disableWarmStart => False | _ => True

theorem run_cons (ob : Obj K) (op : Op K) (ops : List (Op K)) {ob' : Obj K} (h : run d solver ob (op :: ops) = some ob') :
    ∃ ob1, step d solver ob op = some ob1 ∧ run d solver ob1 ops = some ob' := Option.bind_eq_some_iff.1 h

theorem map_some {S T : Type} {v : Option S} {f : S → T} {t : T} (h : v.map f = some t) : ∃ s, v = some s ∧ f s = t := by
  cases v with
  | none => cases h
  | some s => exact ⟨s, rfl, Option.some.inj h⟩

theorem boxX_some {s : Mat K} {old b v : ℕ → Option K} (h : boxX d s old b = some v) : v = put old 0 (d.NX * d.NN) (rep d.NX (s.bnd d.NX b)) := by
  unfold boxX at h
  split at h
  · exact (Option.some.inj h).symm
  · cases h

theorem boxU_some {s : Mat K} {old b v : ℕ → Option K} (h : boxU d s old b = some v) :
    v = put old (d.NX * d.NN) (d.NU * d.NN) (rep d.NU (s.bnd d.NU b)) := by
  unfold boxU at h
  split at h
  · exact (Option.some.inj h).symm
  · cases h

/-- What a solve does to the object. -/
theorem compute_some {ob ob' : Obj K} {x : ℕ → K} (h : computeControl d solver ob x = some ob') :
    ∃ a, solveArgs d ob x = some a ∧ ob'.arg = a ∧ ob'.warm = true ∧ ob'.res = some (solver a) ∧ ob'.sx = ob.sx ∧ ob'.isx = ob.isx ∧ ob'.su = ob.su ∧
      ob'.isu = ob.isu ∧ ob'.traj = some (fun k => ob.isx.app d.NX fun i => (solver a).x (k * d.NX + i)) ∧
      ob'.ctrl = some (fun k => ob.isu.app d.NU fun i => (solver a).x (d.NN * d.NX + k * d.NU + i)) := by
  unfold computeControl at h
  obtain ⟨a, h1, h2⟩ := Option.bind_eq_some_iff.1 h
  refine ⟨a, h1, ?_⟩
  unfold store at h2
  split at h2
  · cases h2; exact ⟨rfl, rfl, rfl, rfl, rfl, rfl, rfl, rfl, rfl⟩
  · cases h2

theorem args_box {ob : Obj K} {x : ℕ → K} {a : Args K} (h : solveArgs d ob x = some a) :
    a.lbx = put ob.arg.lbx (d.S * d.N * d.NX) d.NX (fun i => some (ob.sx.app d.NX x i)) ∧
    a.ubx = put ob.arg.ubx (d.S * d.N * d.NX) d.NX (fun i => some (ob.sx.app d.NX x i)) := by
  unfold solveArgs at h
  split at h
  · simp only [] at h
    split at h
    · cases h; exact ⟨rfl, rfl⟩
    · obtain ⟨g, -, h⟩ := map_some h
      cases h; exact ⟨rfl, rfl⟩
  · cases h

theorem put_in {T : Type} (v : ℕ → T) (a n : ℕ) (w : ℕ → T) {i : ℕ} (hi : i < n) : put v a n w (a + i) = w i := by
  unfold put
  rw [if_pos ⟨by omega, by omega⟩, Nat.add_sub_cancel_left]

theorem put_out {T : Type} (v : ℕ → T) (a n : ℕ) (w : ℕ → T) {i : ℕ} (hi : i < a ∨ a + n ≤ i) : put v a n w i = v i := by
  unfold put
  rw [if_neg (by omega)]

theorem node_idx {k i : ℕ} (hk : k < d.NN) (hi : i < d.NX) : k * d.NX + i < d.NX * d.NN := by
  rw [Nat.mul_comm d.NX]; exact blk_le hi hk

theorem unode_idx {k i : ℕ} (hk : k < d.NN) (hi : i < d.NU) : k * d.NU + i < d.NU * d.NN := by
  rw [Nat.mul_comm d.NU]; exact blk_le hi hk

theorem early_idx {k i : ℕ} (hk : k < d.S * d.N) (hi : i < d.NX) : k * d.NX + i < d.S * d.N * d.NX := blk_le hi hk

theorem last_idx : d.S * d.N * d.NX + d.NX = d.NX * d.NN := by
  unfold Dims.NN; rw [Nat.mul_add, Nat.mul_one, Nat.mul_comm]

theorem rep_x {T : Type} (v : ℕ → T) {k i : ℕ} (hi : i < d.NX) : rep d.NX v (k * d.NX + i) = v i := by
  unfold rep; rw [Nat.add_comm, Nat.add_mul_mod_self_right, Nat.mod_eq_of_lt hi]

theorem rep_u {T : Type} (v : ℕ → T) {k i : ℕ} (hi : i < d.NU) : rep d.NU v (k * d.NU + i) = v i := by
  unfold rep; rw [Nat.add_comm, Nat.add_mul_mod_self_right, Nat.mod_eq_of_lt hi]

/-! ### C141: the box of a solve -/

/-- What a bound is after a sequence of calls: the last value set, scaled, or what it was before. -/
def after (s : Mat K) (n : ℕ) (old : Option K) (last : Option (ℕ → Option K)) (i : ℕ) : Option K :=
  match last with | none => old | some b => s.bnd n b i

theorem lastSet_cons (g : Op K → Option (ℕ → Option K)) (op : Op K) (ops : List (Op K)) (s : Mat K) (n i : ℕ) (old : Option K) :
    after s n old (lastSet g (op :: ops)) i = after s n (after s n old (g op) i) (lastSet g ops) i := by
  unfold lastSet
  rw [List.filterMap_cons]
  cases hg : g op with
  | none => rfl
  | some b =>
    simp only []
    rw [List.getLast?_cons]
    cases h : (ops.filterMap g).getLast? with
    | none => rfl
    | some c => rfl

/-- One call. -/
theorem step_box {ob ob' : Obj K} {op : Op K} (hk : keepsScaling op) (h : step d solver ob op = some ob') :
    ob'.sx = ob.sx ∧ ob'.su = ob.su ∧ ob'.isx = ob.isx ∧ ob'.isu = ob.isu ∧
    (∀ k < d.S * d.N, ∀ i < d.NX, ob'.arg.lbx (k * d.NX + i) = after ob.sx d.NX (ob.arg.lbx (k * d.NX + i)) (lbxOf op) i ∧
      ob'.arg.ubx (k * d.NX + i) = after ob.sx d.NX (ob.arg.ubx (k * d.NX + i)) (ubxOf op) i) ∧
    (∀ k < d.NN, ∀ i < d.NU, ob'.arg.lbx (d.NX * d.NN + (k * d.NU + i)) = after ob.su d.NU (ob.arg.lbx (d.NX * d.NN + (k * d.NU + i))) (lbuOf op) i ∧
      ob'.arg.ubx (d.NX * d.NN + (k * d.NU + i)) = after ob.su d.NU (ob.arg.ubx (d.NX * d.NN + (k * d.NU + i))) (ubuOf op) i) := by
  have hx : ∀ k < d.S * d.N, ∀ i < d.NX, k * d.NX + i < d.NX * d.NN := fun k hk i hi => by
    have := early_idx hk hi; have := last_idx (d := d); omega
  cases op with
  | setLBX b =>
    obtain ⟨v, hv, rfl⟩ := map_some h
    have hv := boxX_some hv
    refine ⟨rfl, rfl, rfl, rfl, fun k hk i hi => ⟨?_, rfl⟩, fun k hk i hi => ⟨?_, rfl⟩⟩
    · have := put_in ob.arg.lbx 0 (d.NX * d.NN) (rep d.NX (ob.sx.bnd d.NX b)) (hx k hk i hi)
      rw [Nat.zero_add, rep_x _ hi] at this
      show v _ = _
      rw [hv, this]; rfl
    · show v _ = _
      rw [hv, put_out _ _ _ _ (by omega)]; rfl
  | setUBX b =>
    obtain ⟨v, hv, rfl⟩ := map_some h
    have hv := boxX_some hv
    refine ⟨rfl, rfl, rfl, rfl, fun k hk i hi => ⟨rfl, ?_⟩, fun k hk i hi => ⟨rfl, ?_⟩⟩
    · have := put_in ob.arg.ubx 0 (d.NX * d.NN) (rep d.NX (ob.sx.bnd d.NX b)) (hx k hk i hi)
      rw [Nat.zero_add, rep_x _ hi] at this
      show v _ = _
      rw [hv, this]; rfl
    · show v _ = _
      rw [hv, put_out _ _ _ _ (by omega)]; rfl
  | setLBU b =>
    obtain ⟨v, hv, rfl⟩ := map_some h
    have hv := boxU_some hv
    refine ⟨rfl, rfl, rfl, rfl, fun k hk i hi => ⟨?_, rfl⟩, fun k hk i hi => ⟨?_, rfl⟩⟩
    · show v _ = _
      rw [hv, put_out _ _ _ _ (Or.inl (hx k hk i hi))]; rfl
    · show v _ = _
      rw [hv, put_in _ _ _ _ (unode_idx hk hi), rep_u _ hi]; rfl
  | setUBU b =>
    obtain ⟨v, hv, rfl⟩ := map_some h
    have hv := boxU_some hv
    refine ⟨rfl, rfl, rfl, rfl, fun k hk i hi => ⟨rfl, ?_⟩, fun k hk i hi => ⟨rfl, ?_⟩⟩
    · show v _ = _
      rw [hv, put_out _ _ _ _ (Or.inl (hx k hk i hi))]; rfl
    · show v _ = _
      rw [hv, put_in _ _ _ _ (unode_idx hk hi), rep_u _ hi]; rfl
  | setStateScaling s si => exact hk.elim
  | setControlScaling s si => exact hk.elim
  | enableWarmStart => cases h; exact ⟨rfl, rfl, rfl, rfl, fun k _ i _ => ⟨rfl, rfl⟩, fun k _ i _ => ⟨rfl, rfl⟩⟩
  | disableWarmStart => cases h; exact ⟨rfl, rfl, rfl, rfl, fun k _ i _ => ⟨rfl, rfl⟩, fun k _ i _ => ⟨rfl, rfl⟩⟩
  | computeControl x =>
    obtain ⟨a, ha, h1, -, -, h4, h5, h6, h7, -⟩ := compute_some h
    obtain ⟨b1, b2⟩ := args_box ha
    refine ⟨h4, h6, h5, h7, fun k hk i hi => ?_, fun k hk i hi => ?_⟩
    · have := early_idx hk hi
      rw [h1, b1, b2, put_out _ _ _ _ (Or.inl this), put_out _ _ _ _ (Or.inl this)]
      exact ⟨rfl, rfl⟩
    · have := last_idx (d := d)
      rw [h1, b1, b2, put_out _ _ _ _ (by omega), put_out _ _ _ _ (by omega)]
      exact ⟨rfl, rfl⟩

theorem run_box (ops : List (Op K)) : ∀ {ob ob' : Obj K}, (∀ op ∈ ops, keepsScaling op) → run d solver ob ops = some ob' →
    ob'.sx = ob.sx ∧ ob'.su = ob.su ∧ ob'.isx = ob.isx ∧ ob'.isu = ob.isu ∧
    (∀ k < d.S * d.N, ∀ i < d.NX, ob'.arg.lbx (k * d.NX + i) = after ob.sx d.NX (ob.arg.lbx (k * d.NX + i)) (lastSet lbxOf ops) i ∧
      ob'.arg.ubx (k * d.NX + i) = after ob.sx d.NX (ob.arg.ubx (k * d.NX + i)) (lastSet ubxOf ops) i) ∧
    (∀ k < d.NN, ∀ i < d.NU,
      ob'.arg.lbx (d.NX * d.NN + (k * d.NU + i)) = after ob.su d.NU (ob.arg.lbx (d.NX * d.NN + (k * d.NU + i))) (lastSet lbuOf ops) i ∧
      ob'.arg.ubx (d.NX * d.NN + (k * d.NU + i)) = after ob.su d.NU (ob.arg.ubx (d.NX * d.NN + (k * d.NU + i))) (lastSet ubuOf ops) i) := by
  induction ops with
  | nil => intro ob ob' _ h; cases h; exact ⟨rfl, rfl, rfl, rfl, fun k _ i _ => ⟨rfl, rfl⟩, fun k _ i _ => ⟨rfl, rfl⟩⟩
  | cons op ops ih =>
    intro ob ob' hs h
    obtain ⟨ob1, h1, h2⟩ := run_cons ob op ops h
    obtain ⟨a1, a2, a3, a4, a5, a6⟩ := step_box (hs op List.mem_cons_self) h1
    obtain ⟨b1, b2, b3, b4, b5, b6⟩ := ih (fun o ho => hs o (List.mem_cons_of_mem _ ho)) h2
    refine ⟨b1.trans a1, b2.trans a2, b3.trans a3, b4.trans a4, fun k hk i hi => ?_, fun k hk i hi => ?_⟩
    · rw [lastSet_cons, lastSet_cons, (b5 k hk i hi).1, (b5 k hk i hi).2, (a5 k hk i hi).1, (a5 k hk i hi).2, a1]
      exact ⟨rfl, rfl⟩
    · rw [lastSet_cons, lastSet_cons, (b6 k hk i hi).1, (b6 k hk i hi).2, (a6 k hk i hi).1, (a6 k hk i hi).2, a2]
      exact ⟨rfl, rfl⟩

theorem construct_some {sys : Sys K} {o : Opts K} {ob : Obj K} (h : construct d sys o = some ob) :
    sizesOk d sys o = true ∧ ob = ⟨(initSX sys o).1, (initSX sys o).2, (initSU d o).1, (initSU d o).2,
      ⟨fun _ => none, fun _ => none, some fun _ => 0, none, none⟩, false, none, none, none⟩ := by
  unfold construct at h
  split at h
  · rename_i hs; exact ⟨hs, (Option.some.inj h).symm⟩
  · cases h

/-- **C141.** The box with which `computeControl(x)` solves, after any sequence of calls that leaves the scaling alone: the state of every node but the
initial time is within the last bounds set with `setLBX`, `setUBX`, and without such a call free; the state at the initial time is `x`, whatever the bounds;
the controls of all nodes are within the last bounds set with `setLBU`, `setUBU`. Bounds and `x` are scaled. -/
theorem solve_box {sys : Sys K} {o : Opts K} {ob ob' : Obj K} {ops : List (Op K)} {x : ℕ → K} {a : Args K} (hc : construct d sys o = some ob)
    (hs : ∀ op ∈ ops, keepsScaling op) (hr : run d solver ob ops = some ob') (ha : solveArgs d ob' x = some a) :
    (∀ k < d.S * d.N, ∀ i < d.NX, a.lbx (k * d.NX + i) = after (initSX sys o).1 d.NX none (lastSet lbxOf ops) i ∧
      a.ubx (k * d.NX + i) = after (initSX sys o).1 d.NX none (lastSet ubxOf ops) i) ∧
    (∀ i < d.NX, a.lbx (d.S * d.N * d.NX + i) = some ((initSX sys o).1.app d.NX x i) ∧
      a.ubx (d.S * d.N * d.NX + i) = some ((initSX sys o).1.app d.NX x i)) ∧
    (∀ k < d.NN, ∀ i < d.NU, a.lbx (d.NX * d.NN + (k * d.NU + i)) = after (initSU d o).1 d.NU none (lastSet lbuOf ops) i ∧
      a.ubx (d.NX * d.NN + (k * d.NU + i)) = after (initSU d o).1 d.NU none (lastSet ubuOf ops) i) := by
  obtain ⟨-, rfl⟩ := construct_some hc
  obtain ⟨b1, -, -, -, b5, b6⟩ := run_box ops hs hr
  obtain ⟨e1, e2⟩ := args_box ha
  rw [e1, e2, b1]
  refine ⟨fun k hk i hi => ?_, fun i hi => ?_, fun k hk i hi => ?_⟩
  · have := early_idx hk hi
    rw [put_out _ _ _ _ (Or.inl this), put_out _ _ _ _ (Or.inl this)]
    exact b5 k hk i hi
  · rw [put_in _ _ _ _ hi, put_in _ _ _ _ hi]
    exact ⟨rfl, rfl⟩
  · have := last_idx (d := d)
    rw [put_out _ _ _ _ (by omega), put_out _ _ _ _ (by omega)]
    exact b6 k hk i hi

/-- A solver that respects variables whose bounds coincide. -/
def Pins (d : Dims) (solver : Args K → Res K) : Prop :=
  ∀ a r v, r < d.VARX → a.lbx r = some v → a.ubx r = some v → (solver a).x r = v

/-- **C141.** After `computeControl(x)`, called at any point, the last column of `getOptimalTrajetory()` is `x`, provided that the solver respects fixed
variables and that the scaling in force is invertible. -/
theorem initial_state (hp : Pins d solver) {ob ob' : Obj K} {x : ℕ → K} (hx : ob.sx.n = d.NX) (hix : ob.isx.n = d.NX)
    (hinv : IsInv d.NX ob.sx.a ob.isx.a) (h : computeControl d solver ob x = some ob') :
    ∃ T, ob'.traj = some T ∧ ∀ i < d.NX, T (d.S * d.N) i = x i := by
  obtain ⟨a, ha, -, -, -, -, -, -, -, ht, -⟩ := compute_some h
  refine ⟨_, ht, fun i hi => ?_⟩
  obtain ⟨e1, e2⟩ := args_box ha
  have hv : ∀ j < d.NX, (solver a).x (d.S * d.N * d.NX + j) = lin d.NX ob.sx.a x j := fun j hj => by
    rw [← app_lin hx]
    refine hp a _ _ ?_ ?_ ?_
    · have := last_idx (d := d); unfold Dims.VARX; omega
    · rw [e1, put_in _ _ _ _ hj]
    · rw [e2, put_in _ _ _ _ hj]
  show ob.isx.app d.NX _ i = _
  rw [app_lin hix, lin_congr _ hv, lin_inv hinv.1]
  unfold part; rw [if_pos hi, Nat.zero_add]

/-! ### C142: warm starts -/

/-- Calls without a solve leave guess and solution alone, calls without `disableWarmStart` the warm start flag. -/
theorem run_quiet (ops : List (Op K)) : ∀ {ob ob' : Obj K}, (∀ op ∈ ops, noSolve op) → run d solver ob ops = some ob' →
    ob'.res = ob.res ∧ ob'.arg.x0 = ob.arg.x0 ∧ ob'.arg.lamG0 = ob.arg.lamG0 ∧ ob'.arg.lamX0 = ob.arg.lamX0 ∧ ob'.traj = ob.traj ∧ ob'.ctrl = ob.ctrl ∧
    ((∀ op ∈ ops, quiet op) → ob.warm = true → ob'.warm = true) := by
  induction ops with
  | nil => intro ob ob' _ h; cases h; exact ⟨rfl, rfl, rfl, rfl, rfl, rfl, fun _ => id⟩
  | cons op ops ih =>
    intro ob ob' hs h
    obtain ⟨ob1, h1, h2⟩ := run_cons ob op ops h
    obtain ⟨b1, b2, b3, b4, b5, b6, b7⟩ := ih (fun o ho => hs o (List.mem_cons_of_mem _ ho)) h2
    have key : ob1.res = ob.res ∧ ob1.arg.x0 = ob.arg.x0 ∧ ob1.arg.lamG0 = ob.arg.lamG0 ∧ ob1.arg.lamX0 = ob.arg.lamX0 ∧ ob1.traj = ob.traj ∧
        ob1.ctrl = ob.ctrl ∧ (quiet op → ob.warm = true → ob1.warm = true) := by
      cases op with
      | setLBX b => obtain ⟨v, -, rfl⟩ := map_some h1; exact ⟨rfl, rfl, rfl, rfl, rfl, rfl, fun _ => id⟩
      | setUBX b => obtain ⟨v, -, rfl⟩ := map_some h1; exact ⟨rfl, rfl, rfl, rfl, rfl, rfl, fun _ => id⟩
      | setLBU b => obtain ⟨v, -, rfl⟩ := map_some h1; exact ⟨rfl, rfl, rfl, rfl, rfl, rfl, fun _ => id⟩
      | setUBU b => obtain ⟨v, -, rfl⟩ := map_some h1; exact ⟨rfl, rfl, rfl, rfl, rfl, rfl, fun _ => id⟩
      | setStateScaling s si => cases h1; exact ⟨rfl, rfl, rfl, rfl, rfl, rfl, fun _ => id⟩
      | setControlScaling s si => cases h1; exact ⟨rfl, rfl, rfl, rfl, rfl, rfl, fun _ => id⟩
      | enableWarmStart => cases h1; exact ⟨rfl, rfl, rfl, rfl, rfl, rfl, fun _ _ => rfl⟩
      | disableWarmStart => cases h1; exact ⟨rfl, rfl, rfl, rfl, rfl, rfl, fun q => q.elim⟩
      | computeControl x => exact (hs _ List.mem_cons_self).elim
    obtain ⟨a1, a2, a3, a4, a5, a6, a7⟩ := key
    exact ⟨b1.trans a1, b2.trans a2, b3.trans a3, b4.trans a4, b5.trans a5, b6.trans a6,
      fun hq hw => b7 (fun o ho => hq o (List.mem_cons_of_mem _ ho)) (a7 (hq op List.mem_cons_self) hw)⟩

theorem quiet_noSolve {op : Op K} (h : quiet op) : noSolve op := by cases op <;> first | exact h | trivial

/-- **C142.** Every solve after the first starts from the solution and the multipliers of the previous one, although warm start was never switched on,
until `disableWarmStart` is called. -/
theorem warm_sequence {ob ob1 ob2 : Obj K} {x y : ℕ → K} {a b : Args K} {mid : List (Op K)} (ha : solveArgs d ob x = some a)
    (h1 : computeControl d solver ob x = some ob1) (hm : ∀ op ∈ mid, quiet op) (h2 : run d solver ob1 mid = some ob2)
    (hb : solveArgs d ob2 y = some b) :
    b.x0 = some (solver a).x ∧ b.lamG0 = some (solver a).lamG ∧ b.lamX0 = some (solver a).lamX := by
  obtain ⟨a', ha', -, hw, hres, -⟩ := compute_some h1
  have e : a' = a := Option.some.inj (ha'.symm.trans ha)
  subst e
  obtain ⟨b1, -, -, -, -, -, b7⟩ := run_quiet mid (fun op ho => quiet_noSolve (hm op ho)) h2
  have hw2 := b7 hm hw
  unfold solveArgs at hb
  split at hb
  · simp only at hb
    cases hb
    rw [b1, hres]
    exact ⟨rfl, rfl, rfl⟩
  · cases hb

/-- The first solve: the states of the guess are the initial state, its controls are zero, there are no multipliers. -/
theorem first_solve {sys : Sys K} {o : Opts K} {ob ob' : Obj K} {ops : List (Op K)} {x : ℕ → K} {a : Args K} (hc : construct d sys o = some ob)
    (hs : ∀ op ∈ ops, noSolve op) (hr : run d solver ob ops = some ob') (hw : ob'.warm = false) (ha : solveArgs d ob' x = some a) :
    ∃ g, a.x0 = some g ∧ (∀ k < d.NN, ∀ i < d.NX, g (k * d.NX + i) = ob'.sx.app d.NX x i) ∧ (∀ c, d.VARX ≤ c → g c = 0) ∧
      a.lamG0 = none ∧ a.lamX0 = none := by
  obtain ⟨-, rfl⟩ := construct_some hc
  obtain ⟨-, b2, b3, b4, -⟩ := run_quiet ops hs hr
  unfold solveArgs at ha
  split at ha
  · simp only [hw, if_false, Bool.false_eq_true] at ha
    obtain ⟨g, hg, rfl⟩ := map_some ha
    unfold coldGuess at hg
    obtain ⟨v, hv, rfl⟩ := map_some hg
    have hv0 : v = fun _ => 0 := Option.some.inj (hv.symm.trans b2)
    subst hv0
    refine ⟨_, rfl, fun k hk i hi => ?_, fun c hc => ?_, b3, b4⟩
    · have := put_in (fun _ => (0 : K)) 0 (d.NN * d.NX) (rep d.NX (ob'.sx.app d.NX x)) (i := k * d.NX + i) (blk_le hi hk)
      rw [Nat.zero_add, rep_x _ hi] at this
      exact this
    · exact put_out _ _ _ _ (Or.inr (by unfold Dims.VARX at hc; rw [Nat.mul_comm d.NX] at hc; omega))
  · cases ha

/-- **C142 (negative).** `disableWarmStart` does not forget: the next solve is started with the states at the initial state, but its controls and
multipliers are those with which the previous solve was started, not zero as in the first solve and not the last solution. If the previous solve had no
guess, because warm start was switched on before the first solve, the call throws. -/
theorem restart_stale {ob ob1 ob2 : Obj K} {x y : ℕ → K} {a : Args K} {mid : List (Op K)} (ha : solveArgs d ob x = some a)
    (h1 : computeControl d solver ob x = some ob1) (hm : ∀ op ∈ mid, noSolve op) (h2 : run d solver ob1 mid = some ob2) (hw : ob2.warm = false) :
    (∀ b, solveArgs d ob2 y = some b → ∃ g g', a.x0 = some g ∧ b.x0 = some g' ∧
      (∀ k < d.NN, ∀ i < d.NX, g' (k * d.NX + i) = ob2.sx.app d.NX y i) ∧ (∀ c, d.VARX ≤ c → g' c = g c) ∧
      b.lamG0 = a.lamG0 ∧ b.lamX0 = a.lamX0) ∧
    (a.x0 = none → computeControl d solver ob2 y = none) := by
  obtain ⟨a', ha', harg, -⟩ := compute_some h1
  have e : a' = a := Option.some.inj (ha'.symm.trans ha)
  subst e
  obtain ⟨-, b2, b3, b4, -⟩ := run_quiet mid hm h2
  rw [harg] at b2 b3 b4
  constructor
  · intro b hb
    unfold solveArgs at hb
    split at hb
    · simp only [hw, if_false, Bool.false_eq_true] at hb
      obtain ⟨g, hg, rfl⟩ := map_some hb
      unfold coldGuess at hg
      obtain ⟨v, hv, rfl⟩ := map_some hg
      refine ⟨v, _, b2.symm.trans hv, rfl, fun k hk i hi => ?_, fun c hc => ?_, b3, b4⟩
      · have := put_in v 0 (d.NN * d.NX) (rep d.NX (ob2.sx.app d.NX y)) (i := k * d.NX + i) (blk_le hi hk)
        rw [Nat.zero_add, rep_x _ hi] at this
        exact this
      · exact put_out _ _ _ _ (Or.inr (by unfold Dims.VARX at hc; rw [Nat.mul_comm d.NX] at hc; omega))
    · cases hb
  · intro hn
    have : solveArgs d ob2 y = none := by
      unfold solveArgs
      split
      · simp only [hw, if_false, Bool.false_eq_true]
        unfold coldGuess
        rw [b2, hn]; rfl
      · rfl
    unfold computeControl
    rw [this]; rfl

/-- Warm start before the first solve: there is no guess. -/
theorem warm_first {sys : Sys K} {o : Opts K} {ob ob' : Obj K} {ops : List (Op K)} {x : ℕ → K} {a : Args K} (hc : construct d sys o = some ob)
    (hs : ∀ op ∈ ops, noSolve op) (hr : run d solver ob ops = some ob') (hw : ob'.warm = true) (ha : solveArgs d ob' x = some a) : a.x0 = none := by
  obtain ⟨-, rfl⟩ := construct_some hc
  obtain ⟨b1, -⟩ := run_quiet ops hs hr
  unfold solveArgs at ha
  split at ha
  · simp only at ha
    cases ha
    rw [b1]; rfl
  · cases ha

end Field

/-- **C141.** With a diagonal scaling of positive entries the scaled bounds hold for the scaled vector exactly if the bounds hold for the vector. -/
theorem scaled_bounds {K : Type} [Field K] [LinearOrder K] [IsStrictOrderedRing K] {S : Mat K} {m : ℕ} (hn : S.n = m)
    (hd : ∀ i < m, ∀ j < m, i ≠ j → S.a i j = 0) (hp : ∀ i < m, 0 < S.a i i) (lb ub : ℕ → Option K) (v : ℕ → K) {i : ℕ} (hi : i < m) :
    within (S.bnd m lb i) (S.bnd m ub i) (S.app m v i) ↔ within (lb i) (ub i) (v i) := by
  have hsum : ∀ w : ℕ → K, S.app m w i = S.a i i * w i := fun w => by
    unfold Mat.app
    rw [if_pos hi, if_pos hn, Finset.sum_eq_single i]
    · intro j hj hne; rw [hd i hi j (Finset.mem_range.1 hj) hne.symm, zero_mul]
    · intro h; exact absurd (Finset.mem_range.2 hi) h
  have hb : ∀ b : ℕ → Option K, S.bnd m b i = (b i).map fun x => S.a i i * x := fun b => by
    unfold Mat.bnd
    have hr : rowInf S m b i = (b i).isNone := by
      unfold rowInf
      simp only [hn, if_true, decide_true, Bool.true_or, Bool.and_true]
      rw [Bool.eq_iff_iff, List.any_eq_true]
      constructor
      · rintro ⟨j, hj, h⟩
        rw [Bool.and_eq_true, decide_eq_true_eq] at h
        by_cases hij : i = j
        · rw [hij]; exact h.2
        · exact absurd (hd i hi j (List.mem_range.1 hj) hij) h.1
      · intro h
        exact ⟨i, List.mem_range.2 hi, by rw [Bool.and_eq_true, decide_eq_true_eq]; exact ⟨(hp i hi).ne', h⟩⟩
    rw [hr, hsum]
    cases b i with
    | none => rfl
    | some x => rfl
  rw [hb, hb, hsum]
  unfold within
  have h1 : (∀ l, (lb i).map (fun x => S.a i i * x) = some l → l ≤ S.a i i * v i) ↔ ∀ l, lb i = some l → l ≤ v i := by
    cases lb i with
    | none => exact ⟨fun _ l h => (by cases h), fun _ l h => (by cases h)⟩
    | some x =>
      exact ⟨fun h l e => (by cases e; exact le_of_mul_le_mul_left (h _ rfl) (hp i hi)), fun h l e => (by
        cases e; exact mul_le_mul_of_nonneg_left (h _ rfl) (hp i hi).le)⟩
  have h2 : (∀ u, (ub i).map (fun x => S.a i i * x) = some u → S.a i i * v i ≤ u) ↔ ∀ u, ub i = some u → v i ≤ u := by
    cases ub i with
    | none => exact ⟨fun _ l h => (by cases h), fun _ l h => (by cases h)⟩
    | some x =>
      exact ⟨fun h l e => (by cases e; exact le_of_mul_le_mul_left (h _ rfl) (hp i hi)), fun h l e => (by
        cases e; exact mul_le_mul_of_nonneg_left (h _ rfl) (hp i hi).le)⟩
  exact and_congr h1 h2

/-- **C141.** The same for a scaling given as one positive number. -/
theorem scaled_bounds_scalar {K : Type} [Field K] [LinearOrder K] [IsStrictOrderedRing K] {S : Mat K} {m : ℕ} (hn : S.n = 1) (hp : 0 < S.a 0 0)
    (lb ub : ℕ → Option K) (v : ℕ → K) {i : ℕ} (hi : i < m) :
    within (S.bnd m lb i) (S.bnd m ub i) (S.app m v i) ↔ within (lb i) (ub i) (v i) := by
  by_cases h1 : m = 1
  · subst h1
    refine scaled_bounds hn (fun i hi j hj hij => absurd (by omega) hij) (fun i hi => ?_) lb ub v hi
    obtain rfl : i = 0 := by omega
    exact hp
  have hnm : ¬ S.n = m := by omega
  have happ : ∀ w : ℕ → K, S.app m w i = S.a 0 0 * w i := fun w => by
    unfold Mat.app
    rw [if_pos hi, if_neg hnm]
  have hb : ∀ b : ℕ → Option K, S.bnd m b i = (b i).map fun x => S.a 0 0 * x := fun b => by
    unfold Mat.bnd
    have hr : rowInf S m b i = (b i).isNone := by
      unfold rowInf
      rw [Bool.eq_iff_iff, List.any_eq_true]
      constructor
      · rintro ⟨j, hj, h⟩
        simp only [hnm, if_false, decide_false, Bool.false_or, Bool.and_eq_true, decide_eq_true_eq] at h
        rw [h.1.2]; exact h.2
      · intro h
        refine ⟨i, List.mem_range.2 hi, ?_⟩
        simp only [hnm, if_false, decide_false, Bool.false_or, Bool.and_eq_true, decide_eq_true_eq]
        exact ⟨⟨hp.ne', trivial⟩, h⟩
    rw [hr, happ]
    cases b i with
    | none => rfl
    | some x => rfl
  rw [hb, hb, happ]
  unfold within
  have e1 : (∀ l, (lb i).map (fun x => S.a 0 0 * x) = some l → l ≤ S.a 0 0 * v i) ↔ ∀ l, lb i = some l → l ≤ v i := by
    cases lb i with
    | none => exact ⟨fun _ l h => (by cases h), fun _ l h => (by cases h)⟩
    | some x =>
      exact ⟨fun h l e => (by cases e; exact le_of_mul_le_mul_left (h _ rfl) hp), fun h l e => (by
        cases e; exact mul_le_mul_of_nonneg_left (h _ rfl) hp.le)⟩
  have e2 : (∀ u, (ub i).map (fun x => S.a 0 0 * x) = some u → S.a 0 0 * v i ≤ u) ↔ ∀ u, ub i = some u → v i ≤ u := by
    cases ub i with
    | none => exact ⟨fun _ l h => (by cases h), fun _ l h => (by cases h)⟩
    | some x =>
      exact ⟨fun h l e => (by cases e; exact le_of_mul_le_mul_left (h _ rfl) hp), fun h l e => (by
        cases e; exact mul_le_mul_of_nonneg_left (h _ rfl) hp.le)⟩
  exact and_congr e1 e2

/-- Two states with scales 1/2 and 3, the first one bounded above only. -/
example : ((⟨2, fun i j => if i = j then if i = 0 then 1 / 2 else 3 else 0⟩ : Mat ℚ).bnd 2 fun i => if i = 0 then none else some 4) 1 = some 12 ∧
    ((⟨2, fun i j => if i = j then if i = 0 then 1 / 2 else 3 else 0⟩ : Mat ℚ).bnd 2 fun i => if i = 0 then none else some 4) 0 = none := by
  decide +kernel

/-- The bounds of a scaling that is not diagonal are no box: with `(x0, x1) ↦ (x0, x1 - x0)` and `0 ≤ x ≤ 1` the second scaled variable would be fixed at 0. -/
example : ((⟨2, fun i j => if i = j then 1 else if i = 1 then -1 else 0⟩ : Mat ℚ).bnd 2 fun _ => some 0) 1 = some 0 ∧
    ((⟨2, fun i j => if i = j then 1 else if i = 1 then -1 else 0⟩ : Mat ℚ).bnd 2 fun _ => some 1) 1 = some 0 := by
  decide +kernel

end PolyMPC.Nmpc
