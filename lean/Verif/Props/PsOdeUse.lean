import Verif.Props.PsOdeIvp

/-! # `PSODESolver` (C156-C158): repeated calls, scaling, arguments -/

namespace PolyMPC.PsOde
open Ocp CasCheb GenOcp Spec Polynomial Nmpc

set_option linter.unusedSectionVars false

section Field
variable {K : Type} [Field K] [LinearOrder K] [IsStrictOrderedRing K] {d : Dims} {ode : Ode K} {o : Props K} {solver : Args K → Nmpc.Res K} {ob ob' : Obj K}

/-! ### C156: answers do not depend on the calls before -/

theorem construct_some (h : construct d ode o = some ob) :
    buildOk d ode o = true ∧ ob = ⟨o.on, (o.matR d).1, ⟨fun _ => none, fun _ => none, fun _ => none, fun _ => 0⟩⟩ := by
  unfold construct at h
  by_cases hb : buildOk d ode o = true
  · rw [if_pos hb] at h; cases h; exact ⟨hb, rfl⟩
  · rw [if_neg hb] at h; cases h

/-- What calls leave as the constructor made it. -/
structure Kept (d : Dims) (ob ob' : Obj K) : Prop where
  scale : ob'.scale = ob.scale
  R : ob'.R = ob.R
  lb : ∀ r, r < d.S * d.N * d.NX ∨ d.VARX + d.VARU ≤ r → ob'.arg.lbx r = ob.arg.lbx r
  ub : ∀ r, r < d.S * d.N * d.NX ∨ d.VARX + d.VARU ≤ r → ob'.arg.ubx r = ob.arg.ubx r
  x0 : ∀ r, d.VARX + d.VARU ≤ r → ob'.arg.x0 r = ob.arg.x0 r

theorem Kept.prepare (k : Kept d ob ob') (x u P : DM K) : PsOde.prepare d ob' x u P = PsOde.prepare d ob x u P := by
  rw [prepare_eq, prepare_eq]
  cases pick d.VARX (x.rep d.NN) with
  | none => rfl
  | some g =>
  cases pick d.NX x with
  | none => rfl
  | some z =>
  cases pick d.VARU u with
  | none => rfl
  | some w =>
  cases argCol d.NP P with
  | none => rfl
  | some p =>
    have hx : d.VARX = d.S * d.N * d.NX + d.NX := varx_split d
    have key : ∀ {v v' : ℕ → Option K} {a n : ℕ} {w1 w2 : ℕ → Option K}, a + n = d.VARX → (∀ r, r < a ∨ d.VARX + d.VARU ≤ r → v' r = v r) →
        put (put v' a n w1) d.VARX d.VARU w2 = put (put v a n w1) d.VARX d.VARU w2 := by
      intro v v' a n w1 w2 ha hv
      funext r
      unfold put
      by_cases h1 : d.VARX ≤ r ∧ r < d.VARX + d.VARU
      · rw [if_pos h1, if_pos h1]
      · rw [if_neg h1, if_neg h1]
        by_cases h2 : a ≤ r ∧ r < a + n
        · rw [if_pos h2, if_pos h2]
        · rw [if_neg h2, if_neg h2]
          exact hv r (by omega)
    show some _ = some _
    rw [key hx.symm k.lb, key hx.symm k.ub, key (Nat.zero_add _) fun r hr => k.x0 r (by omega)]

theorem Kept.after (k : Kept d ob ob') {x u P : DM K} {a : Args K} (h : PsOde.prepare d ob' x u P = some a) : Kept d ob { ob' with arg := a } := by
  have hx : d.VARX = d.S * d.N * d.NX + d.NX := varx_split d
  rw [k.prepare, prepare_eq] at h
  obtain ⟨g, -, h⟩ := Option.bind_eq_some_iff.1 h
  obtain ⟨z, -, h⟩ := Option.bind_eq_some_iff.1 h
  obtain ⟨w, -, h⟩ := Option.bind_eq_some_iff.1 h
  obtain ⟨p, -, rfl⟩ := Option.map_eq_some_iff.1 h
  refine ⟨k.scale, k.R, fun r hr => ?_, fun r hr => ?_, fun r hr => ?_⟩
  · dsimp only
    rw [put_out _ _ _ _ (by omega), put_out _ _ _ _ (by omega)]
  · dsimp only
    rw [put_out _ _ _ _ (by omega), put_out _ _ _ _ (by omega)]
  · dsimp only
    rw [put_out _ _ _ _ (by omega), put_out _ _ _ _ (by omega)]

theorem Kept.step (k : Kept d ob ob') {op : Op K} {ob2 : Obj K} (h : PsOde.step d solver ob' op = some ob2) : Kept d ob ob2 := by
  cases op with
  | solve X0 U P full =>
    obtain ⟨⟨b, y⟩, h', rfl⟩ := Option.map_eq_some_iff.1 h
    clear h; rename' h' => h
    unfold PsOde.solve at h
    by_cases hU : U.rows ≠ d.NU
    · rw [if_pos hU] at h; cases h; exact k
    · rw [if_neg hU] at h
      obtain ⟨x, -, h⟩ := Option.bind_eq_some_iff.1 h
      obtain ⟨u, -, h⟩ := Option.bind_eq_some_iff.1 h
      obtain ⟨a, ha, h⟩ := Option.bind_eq_some_iff.1 h
      obtain ⟨y, -, h⟩ := Option.bind_eq_some_iff.1 h
      cases h
      exact k.after ha
  | solveTrajectory X0 U P full =>
    obtain ⟨⟨b, y⟩, h', rfl⟩ := Option.map_eq_some_iff.1 h
    clear h; rename' h' => h
    unfold PsOde.solveTrajectory at h
    by_cases hU : U.rows ≠ d.NN * d.NU
    · rw [if_pos hU] at h; cases h; exact k
    · rw [if_neg hU] at h
      obtain ⟨x, -, h⟩ := Option.bind_eq_some_iff.1 h
      obtain ⟨u, -, h⟩ := Option.bind_eq_some_iff.1 h
      obtain ⟨a, ha, h⟩ := Option.bind_eq_some_iff.1 h
      obtain ⟨y, -, h⟩ := Option.bind_eq_some_iff.1 h
      cases h
      exact k.after ha

theorem Kept.run (ops : List (Op K)) : ∀ {ob' ob2 : Obj K}, Kept d ob ob' → PsOde.run d solver ob' ops = some ob2 → Kept d ob ob2 := by
  induction ops with
  | nil => intro ob' ob2 k h; cases h; exact k
  | cons op ops ih =>
    intro ob' ob2 k h
    obtain ⟨ob3, h3, h⟩ := Option.bind_eq_some_iff.1 h
    exact ih (k.step h3) h

theorem run_kept {ops : List (Op K)} (h : run d solver ob ops = some ob') : Kept d ob ob' :=
  Kept.run ops ⟨rfl, rfl, fun _ _ => rfl, fun _ _ => rfl, fun _ _ => rfl⟩ h

/-- **C156.** After any sequence of calls, `solve` and `solve_trajectory` answer as the newly constructed object does. -/
theorem history_free {ops : List (Op K)} (h : run d solver ob ops = some ob') (X0 U P : DM K) (full : Bool) :
    (solve d solver ob' X0 U P full).map Prod.snd = (solve d solver ob X0 U P full).map Prod.snd ∧
    (solveTrajectory d solver ob' X0 U P full).map Prod.snd = (solveTrajectory d solver ob X0 U P full).map Prod.snd := by
  have k := run_kept h
  constructor
  · unfold solve
    by_cases hU : U.rows ≠ d.NU
    · rw [if_pos hU, if_pos hU]; rfl
    · rw [if_neg hU, if_neg hU]
      have e1 : initial ob' X0 P = initial ob X0 P := by unfold initial; rw [k.scale]
      have e2 : control ob' U = control ob U := by unfold control; rw [k.scale, k.R]
      have e3 : extract d ob' P full = extract d ob P full := by funext w x; unfold extract; rw [k.scale]
      rw [e1, e2, e3]
      simp only [k.prepare]
      generalize initial ob X0 P = q1
      generalize control ob U = q2
      cases q1 with
      | none => rfl
      | some x =>
      cases q2 with
      | none => rfl
      | some u =>
      show ((prepare d ob x (u.rep d.NN) P).bind _).map _ = ((prepare d ob x (u.rep d.NN) P).bind _).map _
      cases prepare d ob x (u.rep d.NN) P with
      | none => rfl
      | some a =>
        show ((extract d ob P full _ (solver a).x).bind _).map _ = ((extract d ob P full _ (solver a).x).bind _).map _
        cases extract d ob P full _ (solver a).x <;> rfl
  · unfold solveTrajectory
    by_cases hU : U.rows ≠ d.NN * d.NU
    · rw [if_pos hU, if_pos hU]; rfl
    · rw [if_neg hU, if_neg hU]
      have e1 : initial ob' X0 P = initial ob X0 P := by unfold initial; rw [k.scale]
      have e2 : controls d ob' U = controls d ob U := by unfold controls; rw [k.scale, k.R]
      have e3 : extract d ob' P full = extract d ob P full := by funext w x; unfold extract; rw [k.scale]
      rw [e1, e2, e3]
      simp only [k.prepare]
      generalize initial ob X0 P = q1
      generalize controls d ob U = q2
      cases q1 with
      | none => rfl
      | some x =>
      cases q2 with
      | none => rfl
      | some u =>
      show ((prepare d ob x u P).bind _).map _ = ((prepare d ob x u P).bind _).map _
      cases prepare d ob x u P with
      | none => rfl
      | some a =>
        show ((extract d ob P full _ (solver a).x).bind _).map _ = ((extract d ob P full _ (solver a).x).bind _).map _
        cases extract d ob P full _ (solver a).x <;> rfl

/-! ### C157: scaling -/

/-- Without scaling, the constructor accepts exactly the right-hand sides `f(x, u)` if there are no parameters and `f(x, u, p)` if there are. -/
theorem construct_off (ho : o.on = false) : (construct d ode o).isSome ↔ ode.nIn = if d.NP = 0 then 2 else 3 := by
  have hf : (funSode d ode o).nIn = nArgs d 0 := by
    unfold funSode nArgs; rw [ho]
    show (if 0 < d.NP then 4 else 2) = _
    by_cases h : d.NP = 0
    · rw [if_neg (by omega), if_pos ⟨h, rfl⟩]
    · rw [if_pos (by omega), if_neg (by tauto)]
  have hif : (if 0 < d.NP then 3 else 2) = if d.NP = 0 then 2 else 3 := by
    by_cases h : d.NP = 0
    · rw [if_neg (by omega), if_pos h]
    · rw [if_pos (by omega), if_neg h]
  have hb : buildOk d ode o = true ↔ ode.nIn = if d.NP = 0 then 2 else 3 := by
    unfold buildOk
    rw [ho, hf, hif]; simp
  unfold construct
  by_cases h : buildOk d ode o = true
  · rw [if_pos h]; exact ⟨fun _ => hb.1 h, fun _ => rfl⟩
  · rw [if_neg h]; exact ⟨fun h' => absurd h' (by simp), fun h' => absurd (hb.2 h') h⟩

/-- **C157 (negative).** With scaling the constructor throws for every right-hand side that has parameters. -/
theorem scaled_no_parameters (ho : o.on = true) (hp : 1 ≤ d.NP) : construct d ode o = none := by
  have hf : (funSode d ode o).nIn ≠ nArgs d 0 := by
    unfold funSode nArgs; rw [ho]
    show (if 0 < d.NP then 3 else 2) ≠ _
    rw [if_pos (by omega), if_neg (by omega)]
    decide
  unfold construct
  rw [if_neg]
  unfold buildOk
  simp [hf]

/-- The parameter argument must be a scalar for the arguments of the solver to be formed. -/
theorem scaled_scalar (hs : ob.scale = true) (hp : d.NP = 0) (hx : 1 ≤ d.NX) {x0 : ℕ → K} {x u P : DM K} {a : Args K}
    (h1 : initial ob (DM.col d.NX x0) P = some x) (h2 : prepare d ob x u P = some a) : P.scalar = true := by
  by_contra hn
  unfold initial at h1
  rw [if_pos hs] at h1
  unfold DM.mtimes at h1
  rw [if_neg hn] at h1
  rw [prepare_eq] at h2
  obtain ⟨g, -, h2⟩ := Option.bind_eq_some_iff.1 h2
  obtain ⟨z, hz, h2⟩ := Option.bind_eq_some_iff.1 h2
  obtain ⟨w, -, h2⟩ := Option.bind_eq_some_iff.1 h2
  obtain ⟨p, hp', -⟩ := Option.map_eq_some_iff.1 h2
  have he : P.rows = 0 ∨ P.cols = 0 := by
    unfold argCol at hp'
    rw [hp] at hp'
    by_contra hne
    rw [if_neg (by tauto), if_neg hne, if_neg hn, if_neg (by tauto)] at hp'
    cases hp'
  have hpick : ∀ y : DM K, y.rows = 0 ∨ y.cols = 0 → pick d.NX y = none := by
    intro y hy
    unfold pick DM.scalar
    rw [if_neg (by omega), if_neg, if_neg (by omega)]
    rw [Bool.and_eq_true, beq_iff_eq, beq_iff_eq]
    omega
  by_cases hs : (DM.col d.NX x0).scalar = true
  · rw [if_pos hs] at h1
    cases h1
    rw [hpick _ (by exact he)] at hz
    cases hz
  · rw [if_neg hs] at h1
    by_cases hc : P.cols = (DM.col d.NX x0).rows
    · rw [if_pos hc] at h1
      cases h1
      have : P.cols = d.NX := hc
      rw [hpick _ (Or.inl (by show P.rows = 0; omega))] at hz
      cases hz
    · rw [if_neg hc] at h1
      cases h1

/-- **C157 (negative).** With scaling, both functions throw unless the parameter argument is a scalar: so they do for the default argument `DM()`, and for a
scaling matrix of two or more states. -/
theorem scaled_needs_scalar (ho : o.on = true) (hc : construct d ode o = some ob) {ops : List (Op K)} (hr : run d solver ob ops = some ob') (hx : 1 ≤ d.NX)
    (x0 : ℕ → K) {U P : DM K} (hP : P.scalar = false) (full : Bool) :
    (U.rows = d.NU → solve d solver ob' (DM.col d.NX x0) U P full = none) ∧
    (U.rows = (d.S * d.N + 1) * d.NU → solveTrajectory d solver ob' (DM.col d.NX x0) U P full = none) := by
  have hp : d.NP = 0 := by
    by_contra h
    rw [scaled_no_parameters ho (by omega)] at hc
    cases hc
  have hs : ob'.scale = true := by
    rw [(run_kept hr).scale, (construct_some hc).2]; exact ho
  have key : ∀ x u, initial ob' (DM.col d.NX x0) P = some x → prepare d ob' x u P = none := by
    intro x u h1
    by_contra h2
    obtain ⟨a, h2⟩ := Option.ne_none_iff_exists'.1 h2
    rw [scaled_scalar hs hp hx h1 h2] at hP
    cases hP
  constructor
  · intro hU
    unfold solve
    rw [if_neg (by exact fun h => h hU)]
    cases h1 : initial ob' (DM.col d.NX x0) P with
    | none => rfl
    | some x =>
      generalize control ob' U = q2
      cases q2 with
      | none => rfl
      | some u =>
        show (prepare d ob' x (u.rep d.NN) P).bind _ = _
        rw [key _ _ h1]; rfl
  · intro hU
    unfold solveTrajectory
    rw [if_neg (by exact fun h => h hU)]
    cases h1 : initial ob' (DM.col d.NX x0) P with
    | none => rfl
    | some x =>
      generalize controls d ob' U = q2
      cases q2 with
      | none => rfl
      | some u =>
        show (prepare d ob' x u P).bind _ = _
        rw [key _ _ h1]; rfl

/-- **C157 (negative).** With scaling and at least one control, `solve` with `full = true` throws whatever the parameter argument. -/
theorem scaled_full_throws (ho : o.on = true) (hc : construct d ode o = some ob) {ops : List (Op K)} (hr : run d solver ob ops = some ob') (hu : 1 ≤ d.NU)
    {X0 U P : DM K} (hU : U.rows = d.NU) : solve d solver ob' X0 U P true = none := by
  have hs : ob'.scale = true := by
    rw [(run_kept hr).scale, (construct_some hc).2]; exact ho
  have hx : ∀ x, extract d ob' P true (d.VARX + d.VARU) x = none := by
    intro x
    unfold extract
    rw [if_pos rfl, if_pos hs]
    cases P.inv with
    | none => rfl
    | some i =>
      show DM.eachBlock i _ _ _ = _
      unfold DM.eachBlock
      rw [if_neg]
      show (d.VARX + d.VARU) * 1 ≠ d.VARX
      have : 0 < d.VARU := Nat.mul_pos hu (by unfold Dims.NN; omega)
      omega
  unfold solve
  rw [if_neg (by exact fun h => h hU)]
  cases initial ob' X0 P with
  | none => rfl
  | some x =>
    generalize control ob' U = q2
    cases q2 with
    | none => rfl
    | some u =>
      show (prepare d ob' x (u.rep d.NN) P).bind _ = _
      cases prepare d ob' x (u.rep d.NN) P with
      | none => rfl
      | some a =>
        show (extract d ob' P true _ _).bind _ = _
        rw [hx]; rfl

/-- Scaling matrices with their inverses. -/
structure ScaledBy (d : Dims) (o : Props K) (A B V W : Mat K) : Prop where
  on : o.on = true
  P : o.P = some (A, B)
  R : o.R = some (V, W)
  nA : A.n = d.NX
  nB : B.n = d.NX
  nV : V.n = d.NU
  nW : W.n = d.NU
  invX : IsInv d.NX A.a B.a
  invU : IsInv d.NU V.a W.a

theorem argCol_num (n : ℕ) (c : K) : argCol n (DM.num c) = some fun _ => c := by
  unfold argCol
  by_cases h1 : (DM.num c).rows = n ∧ (DM.num c).cols = 1
  · rw [if_pos h1]; rfl
  · rw [if_neg h1, if_neg, if_pos (by rfl)]
    · rfl
    · rintro (h | h) <;> exact absurd h Nat.one_ne_zero

theorem argCol_empty (n : ℕ) : argCol n (DM.empty : DM K) = some fun _ => 0 := by
  unfold argCol
  rw [if_neg (fun h => absurd h.2 (by decide : (0 : ℕ) ≠ 1)), if_pos (Or.inl (by rfl))]

theorem mtimes_col {V : Mat K} {n : ℕ} (h : V.n = n) (u : ℕ → K) :
    ∃ w, (DM.ofMat V).mtimes (DM.col n u) = some (DM.col n w) ∧ ∀ i < n, w i = lin n V.a u i := by
  unfold DM.mtimes
  by_cases h1 : (DM.ofMat V).scalar = true
  · rw [if_pos h1]
    refine ⟨fun i => V.a 0 0 * u i, rfl, fun i hi => ?_⟩
    have hn : V.n = 1 := by
      unfold DM.scalar at h1
      rw [Bool.and_eq_true, beq_iff_eq] at h1
      exact h1.1
    obtain rfl : n = 1 := h.symm.trans hn
    obtain rfl : i = 0 := by omega
    unfold lin
    rw [if_pos hi, Finset.sum_range_one]
  · rw [if_neg h1]
    have h2 : ¬ (DM.col n u).scalar = true := by
      intro h2
      refine h1 ?_
      unfold DM.scalar at h2 ⊢
      rw [Bool.and_eq_true, beq_iff_eq, beq_iff_eq] at h2 ⊢
      exact ⟨h.trans h2.1, h.trans h2.1⟩
    rw [if_neg h2, if_pos (by exact h)]
    refine ⟨fun i => ∑ k ∈ Finset.range V.n, V.a i k * u k, ?_, fun i hi => ?_⟩
    · show some (DM.mk V.n 1 _) = some (DM.mk n 1 _)
      rw [h]
      show some (DM.mk n 1 fun i _ => ∑ k ∈ Finset.range V.n, V.a i k * u k) = _
      rw [h]
    · unfold lin; rw [if_pos hi, h]

theorem val_on {A B V W : Mat K} (sc : ScaledBy d o A B V W) (p var : ℕ → K) (k : ℕ) :
    (funSode d ode o).val (nodeXU d var (fun i => var (d.VARX + i)) p k)
      = lin d.NX A.a (ode.f (lin d.NX B.a (xAt d var k)) (lin d.NU W.a (uAt d var k)) (part d.NP p 0)) := by
  unfold funSode Props.matP Props.matR
  rw [sc.on, sc.P, sc.R]
  show A.app d.NX (ode.f (B.app d.NX (zx _ _)) (W.app d.NU (zu _ _)) (zp _ _)) = _
  rw [zx_node, zu_node, zp_node, uAt_part, app_lin sc.nA, app_lin sc.nB, app_lin sc.nW]
  rfl

end Field

/-- A point of the scaled program is a collocation solution in the original units. -/
theorem rows_on {d : Dims} {ode : Ode ℝ} {o : Props ℝ} {T : ℝ} {p v : ℕ → ℝ} {q : Nmpc.Nlp ℝ} {A B V W : Mat ℝ} (sc : ScaledBy d o A B V W) (hS : 1 ≤ d.S)
    (hN : 1 ≤ d.N) (hT : 0 < T) (h : nlp d (scheme d.N) ode o T p v = some q) (hz : ∀ r < q.n, q.g r = 0) :
    Collocates d.S d.N d.NX (fun x u => ode.f x u (part d.NP p 0)) T (fun k => lin d.NX B.a (xAt d v k)) (fun k => lin d.NU W.a (uAt d v k)) := by
  rw [rows_collocate hS hN hT h] at hz
  simp only [val_on sc] at hz
  intro s hs i hi
  have := hz s hs
  choose! Q h1 h2 h3 using this
  refine ⟨∑ j ∈ Finset.range d.NX, C (B.a i j) * Q j, ?_, fun l hl => ?_, fun j hj => ?_⟩
  · refine natDegree_sum_le_of_forall_le _ _ fun j hj => ?_
    exact (natDegree_C_mul_le _ _).trans (h1 j (Finset.mem_range.1 hj))
  · rw [eval_finsetSum]
    show _ = lin d.NX B.a _ i
    unfold lin
    rw [if_pos hi]
    refine Finset.sum_congr rfl fun j hj => ?_
    rw [eval_C_mul, h2 j (Finset.mem_range.1 hj) l hl]
  · rw [derivative_sum, eval_finsetSum]
    have e : ∀ m ∈ Finset.range d.NX, eval (segTime d.S d.N 0 T s j) (derivative (C (B.a i m) * Q m))
        = B.a i m * lin d.NX A.a (ode.f (lin d.NX B.a (xAt d v (s * d.N + j))) (lin d.NU W.a (uAt d v (s * d.N + j))) (part d.NP p 0)) m := by
      intro m hm
      rw [derivative_C_mul, eval_C_mul, h3 m (Finset.mem_range.1 hm) j hj]
    rw [Finset.sum_congr rfl e]
    have := congrFun (lin_inv sc.invX.1 (ode.f (lin d.NX B.a (xAt d v (s * d.N + j))) (lin d.NU W.a (uAt d v (s * d.N + j))) (part d.NP p 0))) i
    unfold part at this
    rw [if_pos hi, Nat.zero_add] at this
    refine Eq.trans ?_ this
    show _ = (if i < d.NX then _ else _)
    rw [if_pos hi]
    rfl

section Scaled
variable {d : Dims} {ode : Ode ℝ} {o : Props ℝ} {T : ℝ} {solver : Args ℝ → Nmpc.Res ℝ} {ob ob' : Obj ℝ} {A B V W : Mat ℝ} {ops : List (Op ℝ)}

/-- **C157.** What `solve(x0, u, c)` computes with scaling, for a number `c ≠ 0`: the end of a collocation solution `x` in the original units with the
control `u` that starts not at `x0` but at `P⁻¹ (c x0)`, and this end is multiplied by `c⁻¹ P`. -/
theorem scaled_answer (sc : ScaledBy d o A B V W) (hS : 1 ≤ d.S) (hN : 1 ≤ d.N) (hT : 0 < T) (hc : construct d ode o = some ob)
    (hr : run d solver ob ops = some ob') (x0 u : ℕ → ℝ) {c : ℝ} (_h0 : c ≠ 0) :
    ∃ a e, solve d solver ob' (DM.col d.NX x0) (DM.col d.NU u) (DM.num c) false = some ({ ob' with arg := a }, e) ∧ e.rows = d.NX ∧ e.cols = 1 ∧
      (Feasible d ode o T a (solver a).x → ∃ x : ℕ → ℕ → ℝ,
        Collocates d.S d.N d.NX (fun x u => ode.f x u fun _ => 0) T x (fun _ => part d.NU u 0) ∧
        x (d.S * d.N) = lin d.NX B.a (fun i => c * x0 i) ∧ ∀ i < d.NX, e.a i 0 = c⁻¹ * lin d.NX A.a (x 0) i) := by
  have hp : d.NP = 0 := by
    by_contra h
    rw [scaled_no_parameters sc.on (by omega)] at hc
    cases hc
  have hs : ob'.scale = true := by
    rw [(run_kept hr).scale, (construct_some hc).2]; exact sc.on
  have hR : ob'.R = V := by
    rw [(run_kept hr).R, (construct_some hc).2]
    show (o.matR d).1 = V
    unfold Props.matR; rw [sc.R]; rfl
  have harg := argCol_num d.NP c
  obtain ⟨w, hw, hwi⟩ := mtimes_col sc.nV u
  obtain ⟨a, ha, hap, hx, hu, -, -⟩ := prepare_col (ob := ob') (fun i => c * x0 i) (fun i => w (i % d.NU)) harg
  have hsol : solve d solver ob' (DM.col d.NX x0) (DM.col d.NU u) (DM.num c) false
      = some ({ ob' with arg := a }, DM.col d.NX fun i => c⁻¹ * (solver a).x i) := by
    unfold solve initial control extract
    rw [if_neg (by exact fun h => h rfl), hs, hR]
    have hw' : (if true = true then (DM.ofMat V).mtimes (DM.col d.NU u) else some (DM.col d.NU u)) = some (DM.col d.NU w) := by
      rw [if_pos rfl]; exact hw
    rw [hw']
    show (prepare d ob' (DM.col d.NX fun i => c * x0 i) ((DM.col d.NU w).rep d.NN) (DM.num c)).bind _ = _
    rw [rep_col, ha]
    rfl
  refine ⟨a, _, hsol, rfl, rfl, fun hf => ?_⟩
  obtain ⟨h1, h2⟩ := feasible_fixed hf hx hu
  obtain ⟨q, hq, -, hz⟩ := hf
  have hcol := rows_on sc hS hN hT hq hz
  have hpp : part d.NP a.p 0 = fun _ => 0 := by
    funext i; unfold part; rw [if_neg (by omega)]
  rw [hpp] at hcol
  refine ⟨_, collocates_congr hcol fun k hk => ?_, ?_, fun i hi => ?_⟩
  · rw [h2 k (by unfold Dims.NN; omega)]
    have e : ∀ i < d.NU, part d.NU (fun i => w (i % d.NU)) (k * d.NU) i = lin d.NU V.a u i := by
      intro i hi
      unfold part
      rw [if_pos hi]
      beta_reduce
      rw [Nat.add_comm, Nat.add_mul_mod_self_right, Nat.mod_eq_of_lt hi, hwi i hi]
    rw [lin_congr _ e, lin_inv sc.invU.1]
  · rw [h1]
    refine lin_congr _ fun i hi => ?_
    unfold part; rw [if_pos hi, Nat.zero_add]
  · rw [lin_inv sc.invX.2]
    unfold xAt part
    rw [if_pos hi, if_pos (show 0 + i < d.NX by omega)]
    show c⁻¹ * _ = c⁻¹ * _
    congr 2
    omega

/-- A matrix applied block by block. -/
theorem eachBlock_mat {V : Mat ℝ} {n : ℕ} (m : ℕ) (h : V.n = n) (u : ℕ → ℝ) :
    ∃ w, DM.eachBlock (DM.ofMat V) (DM.col (m * n) u) n m = some (DM.col (m * n) w) ∧ ∀ k < m, ∀ i < n, w (k * n + i) = lin n V.a (part n u (k * n)) i := by
  unfold DM.eachBlock
  rw [if_pos (by show m * n * 1 = n * m; rw [Nat.mul_one, Nat.mul_comm])]
  have hdm : ∀ k i, i < n → (k * n + i) % n = i ∧ (k * n + i) / n = k := fun k i hi => by
    rw [Nat.add_comm, Nat.add_mul_mod_self_right, Nat.mod_eq_of_lt hi, Nat.add_mul_div_right _ _ (by omega), Nat.div_eq_of_lt hi, Nat.zero_add]
    exact ⟨rfl, rfl⟩
  unfold DM.mtimes
  by_cases h1 : (DM.ofMat V).scalar = true
  · rw [if_pos h1]
    have hn : V.n = 1 := by
      unfold DM.scalar at h1
      rw [Bool.and_eq_true, beq_iff_eq] at h1
      exact h1.1
    obtain rfl : n = 1 := h.symm.trans hn
    refine ⟨fun k => V.a 0 0 * u (k / 1 * 1 + k % 1), ?_, fun k hk i hi => ?_⟩
    · show some (DM.col (1 * m) _) = _
      rw [Nat.mul_comm 1 m]; rfl
    · obtain rfl : i = 0 := by omega
      unfold lin part
      rw [if_pos hi, Finset.sum_range_one, if_pos hi]
      show V.a 0 0 * u ((k * 1 + 0) / 1 * 1 + (k * 1 + 0) % 1) = _
      rw [(hdm k 0 hi).1, (hdm k 0 hi).2]
  · rw [if_neg h1]
    have hn1 : n ≠ 1 := by
      intro hn
      refine h1 ?_
      unfold DM.scalar
      rw [Bool.and_eq_true, beq_iff_eq, beq_iff_eq]
      exact ⟨h.trans hn, h.trans hn⟩
    rw [if_neg (by
      unfold DM.scalar
      rw [Bool.and_eq_true, beq_iff_eq]
      exact fun h => hn1 h.1), if_pos (by exact h)]
    refine ⟨fun k => ∑ l ∈ Finset.range V.n, V.a (k % n) l * u (k / n * n + l), ?_, fun k hk i hi => ?_⟩
    · show some (DM.col (V.n * m) fun k => ∑ l ∈ Finset.range V.n, V.a (k % V.n) l * u (k / V.n * n + l)) = _
      rw [h, Nat.mul_comm n m]
    · show ∑ l ∈ Finset.range V.n, V.a ((k * n + i) % n) l * u ((k * n + i) / n * n + l) = _
      rw [(hdm k i hi).1, (hdm k i hi).2, h]
      unfold lin part
      rw [if_pos hi]
      refine Finset.sum_congr rfl fun l hl => ?_
      rw [if_pos (Finset.mem_range.1 hl)]

theorem eachBlock_num (c : ℝ) (n m : ℕ) (x : ℕ → ℝ) :
    ∃ w, DM.eachBlock (DM.num c) (DM.col (n * m) x) n m = some (DM.col (n * m) w) ∧ ∀ k < m, ∀ i < n, w (k * n + i) = c * x (k * n + i) := by
  refine ⟨fun k => c * x (k / n * n + k % n), ?_, fun k hk i hi => ?_⟩
  · unfold DM.eachBlock
    rw [if_pos (by show n * m * 1 = n * m; rw [Nat.mul_one])]
    unfold DM.mtimes
    rw [if_pos (by rfl)]
    rfl
  · show c * x ((k * n + i) / n * n + (k * n + i) % n) = _
    rw [Nat.div_add_mod']

/-- **C157.** What `solve_trajectory(x0, u, c, full)` computes with scaling, for a number `c ≠ 0`: the controls of the nodes are those of `u`, one block after
the other, the collocation solution starts at `P⁻¹ (c x0)`, and the states of all nodes are multiplied by `c⁻¹ P`. -/
theorem scaled_trajectory (sc : ScaledBy d o A B V W) (hS : 1 ≤ d.S) (hN : 1 ≤ d.N) (hT : 0 < T) (hc : construct d ode o = some ob)
    (hr : run d solver ob ops = some ob') (x0 u : ℕ → ℝ) {c : ℝ} (_h0 : c ≠ 0) :
    ∃ a y, solveTrajectory d solver ob' (DM.col d.NX x0) (DM.col ((d.S * d.N + 1) * d.NU) u) (DM.num c) true = some ({ ob' with arg := a }, y) ∧
      y.x.rows = d.NX * (d.S * d.N + 1) ∧ y.x.cols = 1 ∧
      (Feasible d ode o T a (solver a).x → ∃ x : ℕ → ℕ → ℝ,
        Collocates d.S d.N d.NX (fun x u => ode.f x u fun _ => 0) T x (fun k => part d.NU u (k * d.NU)) ∧
        x (d.S * d.N) = lin d.NX B.a (fun i => c * x0 i) ∧ ∀ k ≤ d.S * d.N, ∀ i < d.NX, y.x.a (k * d.NX + i) 0 = c⁻¹ * lin d.NX A.a (x k) i) := by
  have hp : d.NP = 0 := by
    by_contra h
    rw [scaled_no_parameters sc.on (by omega)] at hc
    cases hc
  have hs : ob'.scale = true := by
    rw [(run_kept hr).scale, (construct_some hc).2]; exact sc.on
  have hR : ob'.R = V := by
    rw [(run_kept hr).R, (construct_some hc).2]
    show (o.matR d).1 = V
    unfold Props.matR; rw [sc.R]; rfl
  have harg := argCol_num d.NP c
  obtain ⟨w, hw, hwi⟩ := eachBlock_mat d.NN sc.nV u
  obtain ⟨a, ha, hap, hx, hu, -, -⟩ := prepare_col (ob := ob') (fun i => c * x0 i) w harg
  obtain ⟨y, hy, hyi⟩ := eachBlock_num c⁻¹ d.NX d.NN (solver a).x
  have hsol : solveTrajectory d solver ob' (DM.col d.NX x0) (DM.col ((d.S * d.N + 1) * d.NU) u) (DM.num c) true
      = some ({ ob' with arg := a }, ⟨DM.col (d.NX * d.NN) y, DM.col (d.VARX + d.VARU) (solver a).lamX, DM.col (d.VARX - d.NX) (solver a).lamG⟩) := by
    unfold solveTrajectory initial controls extract
    rw [if_neg (by exact fun h => h rfl), hs, hR]
    have hw' : (if true = true then DM.eachBlock (DM.ofMat V) (DM.col ((d.S * d.N + 1) * d.NU) u) d.NU d.NN else some (DM.col ((d.S * d.N + 1) * d.NU) u))
        = some (DM.col (d.NN * d.NU) w) := by
      rw [if_pos rfl]; exact hw
    rw [hw']
    show (prepare d ob' (DM.col d.NX fun i => c * x0 i) (DM.col (d.NN * d.NU) w) (DM.num c)).bind _ = _
    rw [ha]
    show (DM.eachBlock (DM.num c⁻¹) (DM.col (d.NX * d.NN) (solver a).x) d.NX d.NN).bind _ = _
    rw [hy]
    rfl
  refine ⟨a, _, hsol, rfl, rfl, fun hf => ?_⟩
  obtain ⟨h1, h2⟩ := feasible_fixed hf hx hu
  obtain ⟨q, hq, -, hz⟩ := hf
  have hcol := rows_on sc hS hN hT hq hz
  have hpp : part d.NP a.p 0 = fun _ => 0 := by
    funext i; unfold part; rw [if_neg (by omega)]
  rw [hpp] at hcol
  refine ⟨_, collocates_congr hcol fun k hk => ?_, ?_, fun k hk i hi => ?_⟩
  · have hk' : k < d.NN := by unfold Dims.NN; omega
    rw [h2 k hk']
    have e : ∀ i < d.NU, part d.NU w (k * d.NU) i = lin d.NU V.a (part d.NU u (k * d.NU)) i := by
      intro i hi
      rw [← hwi k hk' i hi]
      unfold part
      rw [if_pos hi]
    rw [lin_congr _ e, lin_inv sc.invU.1]
    funext i
    unfold part
    by_cases hi : i < d.NU
    · rw [if_pos hi, Nat.zero_add, if_pos hi]
    · rw [if_neg hi, if_neg hi]
  · rw [h1]
    refine lin_congr _ fun i hi => ?_
    unfold part; rw [if_pos hi, Nat.zero_add]
  · rw [lin_inv sc.invX.2]
    show y (k * d.NX + i) = _
    rw [hyi k (by unfold Dims.NN; omega) i hi]
    unfold xAt part
    rw [if_pos hi, if_pos (show 0 + i < d.NX by omega)]
    show c⁻¹ * _ = c⁻¹ * _
    congr 2
    omega

/-- **C157.** So the answer is right if the scaling is `c` times the identity. -/
theorem scaled_multiple (sc : ScaledBy d o A B V W) (hS : 1 ≤ d.S) (hN : 1 ≤ d.N) (hT : 0 < T) (hc : construct d ode o = some ob)
    (hr : run d solver ob ops = some ob') (x0 u : ℕ → ℝ) {c : ℝ} (h0 : c ≠ 0) (hA : ∀ i < d.NX, ∀ j < d.NX, A.a i j = if i = j then c else 0) :
    ∃ a e, solve d solver ob' (DM.col d.NX x0) (DM.col d.NU u) (DM.num c) false = some ({ ob' with arg := a }, e) ∧
      (Feasible d ode o T a (solver a).x → ∃ x : ℕ → ℕ → ℝ,
        Collocates d.S d.N d.NX (fun x u => ode.f x u fun _ => 0) T x (fun _ => part d.NU u 0) ∧
        (∀ i < d.NX, x (d.S * d.N) i = x0 i) ∧ ∀ i < d.NX, e.a i 0 = x 0 i) := by
  obtain ⟨a, e, h1, -, -, h2⟩ := scaled_answer sc hS hN hT hc hr x0 u h0
  refine ⟨a, e, h1, fun hf => ?_⟩
  obtain ⟨x, h3, h4, h5⟩ := h2 hf
  have hlin : ∀ v : ℕ → ℝ, ∀ i < d.NX, lin d.NX A.a v i = c * v i := by
    intro v i hi
    unfold lin
    rw [if_pos hi, Finset.sum_eq_single i]
    · rw [hA i hi i hi, if_pos rfl]
    · intro j hj hne
      rw [hA i hi j (Finset.mem_range.1 hj), if_neg (Ne.symm hne), zero_mul]
    · intro h; exact absurd (Finset.mem_range.2 hi) h
  refine ⟨x, h3, fun i hi => ?_, fun i hi => ?_⟩
  · rw [h4]
    have e : lin d.NX B.a (fun i => c * x0 i) = lin d.NX B.a (lin d.NX A.a x0) := lin_congr _ fun j hj => (hlin x0 j hj).symm
    rw [e, lin_inv sc.invX.1]
    unfold part; rw [if_pos hi, Nat.zero_add]
  · rw [h5 i hi, hlin _ i hi, ← mul_assoc, inv_mul_cancel₀ h0, one_mul]

/-- The right-hand side `x' = 1`. -/
def clock : Ode ℝ := ⟨2, fun _ _ _ _ => 1⟩

theorem clock_build (hp : d.NP = 0) : buildOk d clock {} = true := by
  unfold buildOk funSode nArgs
  simp [Props.on, clock, hp]

theorem clock_affine (p : ℕ → ℝ) : AffineIn clock d.NX p (fun _ _ => 0) (fun _ _ => 1) := by
  intro x u i _
  show (1 : ℝ) = _
  simp

theorem segTime_start (hS : 1 ≤ d.S) (hN : 1 ≤ d.N) : segTime d.S d.N 0 T (d.S - 1) d.N = 0 := by
  have hSr : (d.S : ℝ) ≠ 0 := by exact_mod_cast (by omega : d.S ≠ 0)
  rw [segTime_eq, (points_ends hN).2]
  have : ((d.S - 1 : ℕ) : ℝ) = d.S - 1 := by push_cast [Nat.cast_sub hS]; ring
  rw [this]; field_simp; ring

theorem segTime_end (hN : 1 ≤ d.N) : segTime d.S d.N 0 T 0 0 = T := by
  rw [segTime_eq, (points_ends hN).1]; push_cast; ring

/-- The only collocation solution of `x' = 1` is `t ↦ x(0) + t`. -/
theorem clock_end (hS : 1 ≤ d.S) (hN : 1 ≤ d.N) (hT : 0 < T) (hp : d.NP = 0) {x u : ℕ → ℕ → ℝ} (hu : ∀ k, part d.NU (u k) 0 = u k)
    (h : Collocates d.S d.N d.NX (fun _ _ _ => 1) T x u) {i : ℕ} (hi : i < d.NX) : x 0 i = x (d.S * d.N) i + T := by
  obtain ⟨E, hE, hex⟩ := ivp_unique (d := d) (o := {}) hS hN rfl (clock_build hp) (clock_affine (part d.NP (fun _ => 0) 0))
  rw [hE fun _ _ => rfl] at hex
  let X : ℕ → ℕ → ℝ := fun k i => x (d.S * d.N) i + if k = d.S * d.N then 0 else segTime d.S d.N 0 T (k / d.N) (k % d.N)
  have hX : ∀ s < d.S, ∀ l ≤ d.N, ∀ i, X (s * d.N + l) i = x (d.S * d.N) i + segTime d.S d.N 0 T s l := by
    intro s hs l hl i
    have hle : (s + 1) * d.N ≤ d.S * d.N := Nat.mul_le_mul_right _ hs
    rw [Nat.add_mul, Nat.one_mul] at hle
    show _ + ite _ _ _ = _
    congr 1
    by_cases hlast : s * d.N + l = d.S * d.N
    · rw [if_pos hlast]
      have hl' : l = d.N := by omega
      have hs' : s = d.S - 1 := by
        have : (s + 1) * d.N = d.S * d.N := by rw [Nat.add_mul, Nat.one_mul]; omega
        have := Nat.eq_of_mul_eq_mul_right (by omega) this
        omega
      rw [hl', hs', segTime_start hS hN]
    · rw [if_neg hlast]
      rcases Nat.lt_or_eq_of_le hl with h | h
      · rw [Nat.add_comm, Nat.add_mul_div_right _ _ (by omega), Nat.div_eq_of_lt h, Nat.add_mul_mod_self_right, Nat.mod_eq_of_lt h, Nat.zero_add]
      · subst h
        have e : s * d.N + d.N = (s + 1) * d.N := by rw [Nat.add_mul, Nat.one_mul]
        rw [e, Nat.mul_div_cancel _ (by omega), Nat.mul_mod_left, segTime_junction hN]
  have hcol : Collocates d.S d.N d.NX (fun _ _ _ => 1) T X u := by
    intro s hs i hi
    refine ⟨C (x (d.S * d.N) i) + Polynomial.X, ?_, fun l hl => ?_, fun j hj => ?_⟩
    · exact (natDegree_add_le _ _).trans (max_le (by rw [natDegree_C]; omega) (by rw [natDegree_X]; omega))
    · rw [eval_add, eval_C, eval_X, hX s hs l hl]
    · simp
  have hsome : ∀ v, ∃ q, nlp d (scheme d.N) clock {} T (fun _ => 0) v = some q := fun v => by
    unfold nlp; rw [if_pos (clock_build hp)]; exact ⟨_, rfl⟩
  obtain ⟨q, hq⟩ := hsome (pack d x u)
  obtain ⟨q', hq'⟩ := hsome (pack d X u)
  have := (hex T (Finset.notMem_empty _)).2 _ _ _ _ hq hq' (pack_rows hS hN hT rfl (clock_affine _) hu h hq)
    (pack_rows hS hN hT rfl (clock_affine _) hu hcol hq') (by
      rw [xAt_pack _ _ (by unfold Dims.NN; omega), xAt_pack _ _ (by unfold Dims.NN; omega)]
      congr 1
      funext i
      show _ = x (d.S * d.N) i + ite _ _ _
      rw [if_pos rfl, add_zero]) (fun k _ => by rw [uAt_pack, uAt_pack]) i (by
      have := xIdx_lt d (zero_lt_NN d) hi
      rwa [Nat.zero_mul, Nat.zero_add] at this)
  have hlt : i < d.VARX := by
    have := xIdx_lt d (zero_lt_NN d) hi
    rwa [Nat.zero_mul, Nat.zero_add] at this
  unfold pack at this
  rw [if_pos hlt, if_pos hlt, Nat.div_eq_of_lt hi, Nat.mod_eq_of_lt hi] at this
  rw [this]
  have h0 := hX 0 (by omega) 0 (Nat.zero_le _) i
  rw [Nat.zero_mul, segTime_end hN] at h0
  exact h0

/-- **C157 (negative).** `x' = 1`, one state scaled by `s`: whenever the solver returns a feasible point, `solve(x0, u, c)` is `x0 + (s / c) T`. The right
value is `x0 + T`. -/
theorem scaled_wrong {s : ℝ} (hs : s ≠ 0) (hx : d.NX = 1) (sc : ScaledBy d o ⟨1, fun _ _ => s⟩ ⟨1, fun _ _ => s⁻¹⟩ V W) (hS : 1 ≤ d.S) (hN : 1 ≤ d.N) (hT : 0 < T)
    (hc : construct d clock o = some ob) (hr : run d solver ob ops = some ob') (x0 u : ℕ → ℝ) {c : ℝ} (h0 : c ≠ 0) :
    ∃ a e, solve d solver ob' (DM.col 1 x0) (DM.col d.NU u) (DM.num c) false = some ({ ob' with arg := a }, e) ∧
      (Feasible d clock o T a (solver a).x → e.a 0 0 = x0 0 + s / c * T) := by
  obtain ⟨a, e, h1, -, -, h2⟩ := scaled_answer (T := T) sc hS hN hT hc hr x0 u h0
  rw [hx] at h1
  refine ⟨a, e, h1, fun hf => ?_⟩
  obtain ⟨x, h3, h4, h5⟩ := h2 hf
  have hp : d.NP = 0 := by
    by_contra h
    rw [scaled_no_parameters sc.on (by omega)] at hc
    cases hc
  have he := clock_end hS hN hT hp (u := fun _ => part d.NU u 0) (fun _ => part_part _ _ _) h3 (i := 0) (by omega)
  have h6 := h5 0 (by omega)
  rw [h6]
  unfold lin
  rw [if_pos (by omega), hx, Finset.sum_range_one, he, h4]
  unfold lin
  rw [if_pos (by omega), hx, Finset.sum_range_one]
  field_simp

end Scaled

/-! ### C158: arguments -/

section Args
variable {d : Dims} {ode : Ode ℝ} {o : Props ℝ} {T : ℝ} (solver : Args ℝ → Nmpc.Res ℝ) {ob : Obj ℝ}

/-- **C158 (negative).** In `solve(x0, u, full)` with a `bool` the third argument is taken for the parameters: the answer is one state, not the
trajectory, and belongs to the problem in which every parameter is 1 (or 0, for `false`). -/
theorem bool_is_parameter (hS : 1 ≤ d.S) (hN : 1 ≤ d.N) (hT : 0 < T) (ho : o.on = false) (hob : ob.scale = false) (x0 u : ℕ → ℝ) (full : Bool) :
    ∃ a e, solveBool d solver ob (DM.col d.NX x0) (DM.col d.NU u) full = some ({ ob with arg := a }, e) ∧ e.rows = d.NX ∧ e.cols = 1 ∧
      (Feasible d ode o T a (solver a).x → ∃ x : ℕ → ℕ → ℝ,
        Collocates d.S d.N d.NX (fun x u => ode.f x u fun i => if i < d.NP ∧ full = true then 1 else 0) T x (fun _ => part d.NU u 0) ∧
        (∀ i < d.NX, x (d.S * d.N) i = x0 i) ∧ ∀ i < d.NX, e.a i 0 = x 0 i) := by
  have harg := argCol_num d.NP (if full then (1 : ℝ) else 0)
  obtain ⟨a, h1, h2⟩ := solve_meaning (ode := ode) (o := o) (T := T) solver hS hN hT ho hob x0 u harg
  obtain ⟨e, he⟩ := h1 false
  have hrows : e.rows = d.NX ∧ e.cols = 1 := by
    unfold solve initial control extract at he
    rw [if_neg (by exact fun h => h rfl), hob] at he
    obtain ⟨x, -, he⟩ := Option.bind_eq_some_iff.1 he
    obtain ⟨y, -, he⟩ := Option.bind_eq_some_iff.1 he
    obtain ⟨z, -, he⟩ := Option.bind_eq_some_iff.1 he
    cases he
    exact ⟨rfl, rfl⟩
  refine ⟨a, e, he, hrows.1, hrows.2, fun hf => ?_⟩
  obtain ⟨y, e', -, he', -, -, -, -, h3, h4, h5⟩ := h2 hf
  rw [he] at he'
  cases he'
  refine ⟨nodes d.NX y, ?_, h4, h5⟩
  have hpp : (part d.NP (fun _ => if full then (1 : ℝ) else 0) 0) = fun i => if i < d.NP ∧ full = true then 1 else 0 := by
    funext i; unfold part
    by_cases hi : i < d.NP
    · rw [if_pos hi]
      cases full
      · rw [if_neg (by simp), if_neg (by simp)]
      · rw [if_pos rfl, if_pos ⟨hi, rfl⟩]
    · rw [if_neg hi, if_neg (by tauto)]
  rw [hpp] at h3
  exact h3

/-- **C158 (negative).** Without a parameter argument every parameter is 0. -/
theorem missing_parameters (hS : 1 ≤ d.S) (hN : 1 ≤ d.N) (hT : 0 < T) (ho : o.on = false) (hob : ob.scale = false) (x0 u : ℕ → ℝ) :
    ∃ a e, solve d solver ob (DM.col d.NX x0) (DM.col d.NU u) DM.empty false = some ({ ob with arg := a }, e) ∧
      (Feasible d ode o T a (solver a).x → ∃ x : ℕ → ℕ → ℝ,
        Collocates d.S d.N d.NX (fun x u => ode.f x u fun _ => 0) T x (fun _ => part d.NU u 0) ∧
        (∀ i < d.NX, x (d.S * d.N) i = x0 i) ∧ ∀ i < d.NX, e.a i 0 = x 0 i) := by
  have harg : argCol d.NP (DM.empty : DM ℝ) = _ := argCol_empty d.NP
  obtain ⟨a, h1, h2⟩ := solve_meaning (ode := ode) (o := o) (T := T) solver hS hN hT ho hob x0 u harg
  obtain ⟨e, he⟩ := h1 false
  refine ⟨a, e, he, fun hf => ?_⟩
  obtain ⟨y, e', -, he', -, -, -, -, h3, h4, h5⟩ := h2 hf
  rw [he] at he'
  cases he'
  refine ⟨nodes d.NX y, ?_, h4, h5⟩
  have hpp : (part d.NP (fun _ => (0 : ℝ)) 0) = fun _ => 0 := by
    funext i; unfold part
    by_cases hi : i < d.NP
    · rw [if_pos hi]
    · rw [if_neg hi]
  rw [hpp] at h3
  exact h3

/-- **C158 (negative).** For a control vector of the wrong length nothing is integrated: both functions return the state they are given, and no
error is raised. -/
theorem wrong_control (X0 U P : DM ℝ) (full : Bool) :
    (U.rows ≠ d.NU → solve d solver ob X0 U P full = some (ob, X0)) ∧
    (U.rows ≠ (d.S * d.N + 1) * d.NU → ∃ l, solveTrajectory d solver ob X0 U P full = some (ob, ⟨X0, l, l⟩) ∧ l.rows = X0.rows ∧ ∀ i, l.a i 0 = 0) := by
  refine ⟨fun h => if_pos h, fun h => ⟨_, if_pos h, rfl, fun _ => rfl⟩⟩

end Args

/-! ### The hypotheses can be met -/

section Examples
variable {d : Dims}

/-- For `x' = 1` there is a solver that always returns a feasible point of the programs it is given by a new object. -/
theorem clock_solver {T : ℝ} (hS : 1 ≤ d.S) (hN : 1 ≤ d.N) (hp : d.NP = 0) :
    ∃ solver : Args ℝ → Nmpc.Res ℝ, ∀ ob, construct d clock {} = some ob → ∀ x0 u : ℕ → ℝ, ∀ P a,
      prepare d ob (DM.col d.NX x0) (DM.col (d.NN * d.NU) u) P = some a → Feasible d clock {} T a (solver a).x := by
  classical
  refine ⟨fun a => ⟨if h : ∃ v, Feasible d clock {} T a v then h.choose else fun _ => 0, fun _ => 0, fun _ => 0⟩, fun ob hc x0 u P a ha => ?_⟩
  suffices h : ∃ v, Feasible d clock {} T a v by
    show Feasible d clock {} T a (dite _ _ _)
    rw [dif_pos h]; exact h.choose_spec
  have hP : ∃ p, argCol d.NP P = some p := by
    rw [prepare_eq] at ha
    obtain ⟨g, -, ha⟩ := Option.bind_eq_some_iff.1 ha
    obtain ⟨z, -, ha⟩ := Option.bind_eq_some_iff.1 ha
    obtain ⟨w, -, ha⟩ := Option.bind_eq_some_iff.1 ha
    obtain ⟨p, hp', -⟩ := Option.map_eq_some_iff.1 ha
    exact ⟨p, hp'⟩
  obtain ⟨p, hP⟩ := hP
  obtain ⟨a', ha', hap, hx, hu, -, -⟩ := prepare_col (ob := ob) x0 u hP
  rw [ha] at ha'
  cases ha'
  have hk := (Kept.after (ob := ob) (ob' := ob) ⟨rfl, rfl, fun _ _ => rfl, fun _ _ => rfl, fun _ _ => rfl⟩ ha)
  obtain ⟨E, hE, hex⟩ := ivp_unique (d := d) (o := {}) hS hN rfl (clock_build hp) (clock_affine (part d.NP a.p 0))
  rw [hE fun _ _ => rfl] at hex
  obtain ⟨v, q, hq, hz, h1, h2⟩ := (hex T (Finset.notMem_empty _)).1 x0 u
  refine ⟨v, q, hq, fun r hr => ?_, hz⟩
  rw [(nlp_ok hq).1] at hr
  have hs : d.VARX = d.S * d.N * d.NX + d.NX := varx_split d
  have wi : ∀ {l b : Option ℝ} {c y : ℝ}, l = some c → b = some c → y = c → within l b y := by
    rintro l b c y rfl rfl rfl
    exact ⟨fun _ h => by cases h; exact le_refl _, fun _ h => by cases h; exact le_refl _⟩
  by_cases hr1 : r < d.S * d.N * d.NX
  · have e1 := hk.lb r (Or.inl hr1)
    have e2 := hk.ub r (Or.inl hr1)
    rw [(construct_some hc).2] at e1 e2
    dsimp only at e1 e2
    rw [e1, e2]
    exact ⟨fun _ h => (by cases h), fun _ h => (by cases h)⟩
  · by_cases hr2 : r < d.VARX
    · obtain ⟨i, hi, rfl⟩ : ∃ i < d.NX, r = d.S * d.N * d.NX + i := ⟨r - d.S * d.N * d.NX, by omega, by omega⟩
      refine wi (hx i hi).1 (hx i hi).2 ?_
      have := congrFun h1 i
      unfold xAt part at this
      rw [if_pos hi, if_pos hi, Nat.zero_add] at this
      exact this
    · obtain ⟨c, hc', rfl⟩ : ∃ c < d.VARU, r = d.VARX + c := ⟨r - d.VARX, by omega, by omega⟩
      exact wi (hu c hc').1 (hu c hc').2 (h2 c hc')

/-- With this solver all hypotheses of `solve_exact` hold, and the answer is `x0 + T`: any number of segments, any order, two states, one control. -/
example (S N : ℕ) (hS : 1 ≤ S) (hN : 1 ≤ N) (T : ℝ) (hT : 0 < T) : ∃ (solver : Args ℝ → Nmpc.Res ℝ) (ob : Obj ℝ), construct ⟨2, 1, 0, 0, S, N⟩ clock {} = some ob ∧
    ∀ x0 u : ℕ → ℝ, ∃ a e, solve ⟨2, 1, 0, 0, S, N⟩ solver ob (DM.col 2 x0) (DM.col 1 u) DM.empty false = some ({ ob with arg := a }, e) ∧
      Feasible ⟨2, 1, 0, 0, S, N⟩ clock {} T a (solver a).x ∧ e.a 1 0 = x0 1 + T := by
  obtain ⟨solver, hf⟩ := clock_solver (d := ⟨2, 1, 0, 0, S, N⟩) (T := T) hS hN rfl
  have hc : construct ⟨2, 1, 0, 0, S, N⟩ clock {} = some ⟨false, eye 1, ⟨fun _ => none, fun _ => none, fun _ => none, fun _ => 0⟩⟩ := by
    unfold construct; rw [if_pos (clock_build rfl)]; rfl
  obtain ⟨E, hE, hex⟩ := solve_exact (d := ⟨2, 1, 0, 0, S, N⟩) (o := {}) (P := DM.empty) (p := fun _ => 0) solver hS hN rfl
    (ob := ⟨false, eye 1, ⟨fun _ => none, fun _ => none, fun _ => none, fun _ => 0⟩⟩) rfl (clock_affine _) (argCol_empty _)
  rw [hE fun _ _ => rfl] at hex
  refine ⟨solver, _, hc, fun x0 u => ?_⟩
  obtain ⟨a, y, e, -, h1, h2⟩ := hex T hT (Finset.notMem_empty _) x0 u
  obtain ⟨a', ha', -⟩ := prepare_col (d := ⟨2, 1, 0, 0, S, N⟩) (ob := ⟨false, eye 1, ⟨fun _ => none, fun _ => none, fun _ => none, fun _ => 0⟩⟩) x0
    (fun i => u (i % 1)) (P := DM.empty) (argCol_empty _)
  have : a = a' := by
    unfold solve initial control extract at h1
    rw [if_neg (by exact fun h => h rfl)] at h1
    change ((prepare _ _ (DM.col 2 x0) ((DM.col 1 u).rep _) DM.empty).bind _) = _ at h1
    rw [rep_col] at h1
    rw [ha'] at h1
    exact (congrArg (fun p => (Prod.fst p).arg) (Option.some.inj h1)).symm
  subst this
  have hfe := hf _ hc x0 _ _ a ha'
  refine ⟨a, e, h1, hfe, ?_⟩
  have := (h2 hfe (fun i => C (x0 i) + X) (fun i _ => ⟨?_, by simp⟩) fun t _ _ i _ => by simp [clock]).1 1 (by show 1 < 2; decide)
  · rw [this]; simp
  · exact (natDegree_add_le _ _).trans (max_le (by rw [natDegree_C]; omega) (by rw [natDegree_X]; exact hN))

/-- A scaled object over ℚ: two states scaled by a shear, one control by 5. It can be built; the default argument and a matrix throw, and so does
`full`; with the number 3 a solver that returns `0, 1, 2, …` makes it return the first two numbers divided by 3. -/
def exO : Props ℚ where
  scale := some 1
  P := some (⟨2, fun i j => if i = j ∨ (i = 0 ∧ j = 1) then 1 else 0⟩, ⟨2, fun i j => if i = j then 1 else if i = 0 ∧ j = 1 then -1 else 0⟩)
  R := some (⟨1, fun _ _ => 5⟩, ⟨1, fun _ _ => 1 / 5⟩)

def exF : Ode ℚ := ⟨2, fun x u _ i => if i = 0 then x 1 else u 0⟩

def exSolve (P : DM ℚ) (full : Bool) : Option (List ℚ) :=
  (construct ⟨2, 1, 0, 0, 2, 1⟩ exF exO).bind fun ob => (solve ⟨2, 1, 0, 0, 2, 1⟩ (fun _ => ⟨fun i => (i : ℚ), fun _ => 0, fun _ => 0⟩) ob (DM.col 2 fun i => i + 1)
    (DM.col 1 fun _ => 1) P full).map fun r => (List.range r.2.rows).map fun i => r.2.a i 0

example : exSolve (DM.num 3) false = some [0, 1 / 3] ∧ exSolve DM.empty false = none ∧ exSolve (DM.ofMat ⟨2, fun i j => if i = j then 1 else 0⟩) false = none ∧
    exSolve (DM.num 3) true = none ∧ (construct ⟨2, 1, 1, 0, 2, 1⟩ { exF with nIn := 3 } exO).isNone ∧
    (construct ⟨2, 1, 1, 0, 2, 1⟩ { exF with nIn := 3 } { exO with scale := some 0 }).isSome := by decide +kernel

/-- The bounds on the initial node and the controls that the solver is given, after another call with other values. -/
example : ((construct ⟨1, 1, 0, 0, 1, 2⟩ exF {}).bind fun ob =>
    (run ⟨1, 1, 0, 0, 1, 2⟩ (fun _ => ⟨fun i => (i : ℚ), fun _ => 0, fun _ => 0⟩) ob [.solve (DM.col 1 fun _ => 7) (DM.col 1 fun _ => 8) DM.empty true]).bind fun ob =>
    (solve ⟨1, 1, 0, 0, 1, 2⟩ (fun _ => ⟨fun i => (i : ℚ), fun _ => 0, fun _ => 0⟩) ob (DM.col 1 fun _ => 4) (DM.col 1 fun _ => 5) DM.empty false).map fun r =>
    (List.range 7).map r.1.arg.lbx) = some [none, none, some 4, some 5, some 5, some 5, none] := by decide +kernel

end Examples

end PolyMPC.PsOde
