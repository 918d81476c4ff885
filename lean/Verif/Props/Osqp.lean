import Verif.Model.QpAdapters
import Verif.Props.AdmmSparse
import Verif.Lemmas.QP

/-!
# The adapter to OSQP (C113, C114, C115)

The problem handed to OSQP has the feasible points, the objective and the KKT points of the QP passed by the caller, provided that the first
call on an object is made without `warm_start` and all later ones with it. A later call without `warm_start` solves the first problem again.
-/

namespace PolyMPC.Osqp
open Matrix PolyMPC.Spec PolyMPC.QPBase PolyMPC.Sparse PolyMPC.AdmmSparse

set_option linter.unusedSectionVars false
set_option linter.unusedVariables false

variable {K : Type} [Field K] [LinearOrder K] [IsStrictOrderedRing K] {N M : ℕ}

/-- The problem in OSQP's workspace, with the matrices written out. -/
def Prob.toRow (p : Prob K N M) : RowQP K N (M + N) :=
  { P := fun i j => p.P.coeff i j, q := p.q, A := fun i j => p.A.coeff i j, l := p.l, u := p.u }

/-- How the caller reads a vector of multipliers: `head<M>()` belongs to the rows of `A`, `tail<N>()` to the variables. -/
def split (y : Fin (M + N) → K) : Fin M ⊕ Fin N → K := Sum.elim (fun i => y (Fin.castAdd N i)) (fun i => y (Fin.natAdd M i))

/-- The same problem: feasible points, objective, stationarity and KKT points coincide. -/
structure Same (r : RowQP K N (M + N)) (qp : QP K N M) : Prop where
  feasible : ∀ x, r.Feasible x ↔ qp.Feasible x
  objective : ∀ x, r.objective x = qp.objective x
  stationarity : ∀ x y, r.stationarity x y = qp.lagrangianGradient x (split y)
  kkt : ∀ x y, r.KKT x y ↔ qp.KKT x (split y)

theorem all_rows {P : Fin (M + N) → Prop} : (∀ i, P i) ↔ (∀ i : Fin M, P (Fin.castAdd N i)) ∧ ∀ i : Fin N, P (Fin.natAdd M i) :=
  ⟨fun h => ⟨fun i => h _, fun i => h _⟩, fun h i => Fin.addCases h.1 h.2 i⟩

theorem same_of_rows {r : RowQP K N (M + N)} {qp : QP K N M} (hP : r.P = qp.H) (hq : r.q = qp.h) (hl : r.l = stack qp.Alb qp.xlb)
    (hu : r.u = stack qp.Aub qp.xub) (hA : ∀ i j, r.A (Fin.castAdd N i) j = qp.A i j)
    (hI : ∀ i j, r.A (Fin.natAdd M i) j = (1 : Matrix (Fin N) (Fin N) K) i j) : Same r qp := by
  have e1 : ∀ x i, (r.A *ᵥ x) (Fin.castAdd N i) = (qp.A *ᵥ x) i := fun x i => by
    simp only [Matrix.mulVec, dotProduct, hA]
  have e2 : ∀ x i, (r.A *ᵥ x) (Fin.natAdd M i) = x i := fun x i => by
    have : (r.A *ᵥ x) (Fin.natAdd M i) = ((1 : Matrix (Fin N) (Fin N) K) *ᵥ x) i := by simp only [Matrix.mulVec, dotProduct, hI]
    rw [this, Matrix.one_mulVec]
  have e3 : ∀ x y, r.stationarity x y = qp.lagrangianGradient x (split y) := by
    intro x y
    funext j
    have h3 : (r.Aᵀ *ᵥ y) j = (qp.Aᵀ *ᵥ QP.yA (split y)) j + QP.yBox (split y) j := by
      show ∑ i, r.A i j * y i = ∑ i, qp.A i j * y (Fin.castAdd N i) + y (Fin.natAdd M j)
      rw [Fin.sum_univ_add]
      congr 1
      · exact Finset.sum_congr rfl fun i _ => by rw [hA]
      · rw [Finset.sum_eq_single j]
        · rw [hI, Matrix.one_apply_eq, one_mul]
        · intro b _ hb; rw [hI, Matrix.one_apply_ne hb, zero_mul]
        · intro h; exact absurd (Finset.mem_univ j) h
    show (r.P *ᵥ x) j + r.q j + (r.Aᵀ *ᵥ y) j = (qp.H *ᵥ x) j + qp.h j + (qp.Aᵀ *ᵥ QP.yA (split y)) j + QP.yBox (split y) j
    rw [h3, hP, hq]; ring
  have l1 : ∀ i, r.l (Fin.castAdd N i) = qp.Alb i := fun i => by rw [hl]; exact Fin.addCases_left i
  have l2 : ∀ i, r.l (Fin.natAdd M i) = qp.xlb i := fun i => by rw [hl]; exact Fin.addCases_right i
  have u1 : ∀ i, r.u (Fin.castAdd N i) = qp.Aub i := fun i => by rw [hu]; exact Fin.addCases_left i
  have u2 : ∀ i, r.u (Fin.natAdd M i) = qp.xub i := fun i => by rw [hu]; exact Fin.addCases_right i
  refine ⟨fun x => ?_, fun x => ?_, e3, fun x y => ?_⟩
  · unfold RowQP.Feasible QP.Feasible
    rw [all_rows]
    simp only [e1, e2, l1, l2, u1, u2]
  · unfold RowQP.objective QP.objective
    rw [hP, hq]
  · unfold RowQP.KKT QP.KKT QP.InNormalCone
    rw [e3, all_rows]
    simp only [e1, e2, l1, l2, u1, u2]
    constructor
    · rintro ⟨h, ha, hb⟩
      refine ⟨h, ?_⟩
      rintro (i | i)
      · exact ha i
      · exact hb i
    · rintro ⟨h, ha⟩
      exact ⟨h, fun i => ha (Sum.inl i), fun i => ha (Sum.inr i)⟩

/-- The stacked matrix has the rows of `A` and then those of the identity. -/
theorem same_of_holds {p : SparseQP K N M} {S : Csc K} {PA : ℕ → ℕ → Bool} {MA : ℕ → ℕ → K} (hA : Holds p.A N M PA MA)
    (hS : Holds S N (M + N) (stackPat M PA) (stackVal M MA)) :
    Same (Prob.toRow ⟨p.H, p.h, S, stack p.Alb p.xlb, stack p.Aub p.xub⟩ : RowQP K N (M + N)) p.toQP := by
  refine same_of_rows rfl rfl rfl rfl (fun i j => ?_) (fun i j => ?_)
  · have h := congrFun (congrFun (matA_eq hA hS) (Sum.inl i)) j
    exact h
  · have h := congrFun (congrFun (matA_eq hA hS) (Sum.inr i)) j
    exact h

/-! ### Sequences of calls -/

variable {E : Engine K N M}

/-- What the caller passes to one call. -/
structure Call (E : Engine K N M) where
  opt : Opts E
  p : SparseQP K N M
  g : Option ((Fin N → K) × (Fin (M + N) → K))

/-- Consecutive calls on one object; the status returned is that of the last call. -/
def run : List (Call E) → Obj E × Status → Option (Obj E × Status)
  | [], s => some s
  | c :: l, s => (solve c.opt c.p c.g s.1).bind (run l)

/-- Histories as in `SQPBase`: the first call without `warm_start` and `reuse_pattern`, the later ones with `warm_start`, and with
`reuse_pattern` only if the constraint matrix stores entries at the same places as in the call before. -/
def Regular : Option (SparseQP K N M) → List (Call E) → Prop
  | _, [] => True
  | none, c :: l => WF c.p.A N M ∧ c.opt.warm = false ∧ c.opt.reuse = false ∧ Regular (some c.p) l
  | some q, c :: l => WF c.p.A N M ∧ c.opt.warm = true ∧
      (c.opt.reuse = true → ∀ k < N, (q.A.col k).map Prod.fst = (c.p.A.col k).map Prod.fst) ∧ Regular (some c.p) l

/-- A new object. -/
def Fresh (o : Obj E) : Prop := o.work = none ∧ o.data.P = none ∧ o.data.A = none

/-- What holds between calls. -/
structure Ready (q : SparseQP K N M) (o : Obj E) : Prop where
  a : ∃ V, Holds o.mA N (M + N) (stackPat M (patt q.A)) (stackVal M V)
  work : o.work.isSome = true

/-- The workspace at the end of a call: the problem represents the QP of the call, and the results are those of OSQP on it. -/
def Solves (c : Call E) (o : Obj E) (s : Status) : Prop :=
  ∃ (cfg : E.Cfg) (h h' : E.Hid) (pr : Prob K N M) (r : Result K N M), E.run cfg h pr = (h', r) ∧ Same pr.toRow c.p.toQP ∧
    o.x = r.x ∧ o.y = r.y ∧ s = mapStatus r.status ∧ o.info.status = s ∧ o.info.iter = r.iter ∧ o.info.resPrim = r.duaRes

theorem constructA_reuse {p q : SparseQP K N M} {old : Csc K} {V : ℕ → ℕ → K} (hp : WF p.A N M)
    (ho : Holds old N (M + N) (stackPat M (patt q.A)) (stackVal M V)) (e : ∀ k < N, (q.A.col k).map Prod.fst = (p.A.col k).map Prod.fst) :
    ∃ S, constructAReuse N p.A old = some S ∧ Holds S N (M + N) (stackPat M (patt p.A)) (stackVal M p.A.coeff) := by
  refine constructAReuse_holds hp.holds (MO := V) (ho.congrP fun c hc r => ?_)
  unfold stackPat
  have : patt q.A c r = patt p.A c r := decide_eq_decide.mpr (by unfold Stored; rw [e c hc])
  rw [this]

/-- The first call. -/
theorem first_call {c : Call E} (hw : WF c.p.A N M) (h1 : c.opt.warm = false) (h2 : c.opt.reuse = false) {o : Obj E} (ho : Fresh o) :
    ∃ o' s, solve c.opt c.p c.g o = some (o', s) ∧ Ready c.p o' ∧ Solves c o' s := by
  obtain ⟨S, e, hS⟩ := constructAFresh_holds hw.holds o.mA
  obtain ⟨f1, f2, f3⟩ := ho
  have hsame := same_of_holds (p := c.p) hw.holds hS
  unfold solve constructA
  rw [h2, if_neg (by simp), e, Option.bind_some]
  simp only [h1, Bool.false_eq_true, if_false]
  rcases hg : c.g with _ | ⟨gx, gy⟩
  all_goals
    simp only [setData, initSolver, f1, f2, f3, Option.none_or, setGuess, finish, Option.map_some]
    exact ⟨_, _, rfl, ⟨⟨_, hS⟩, rfl⟩, _, _, _, _, _, rfl, hsame, rfl, rfl, rfl, rfl, rfl, rfl⟩

/-- A later call. -/
theorem later_call {q : SparseQP K N M} {c : Call E} (hw : WF c.p.A N M) (h1 : c.opt.warm = true)
    (h2 : c.opt.reuse = true → ∀ k < N, (q.A.col k).map Prod.fst = (c.p.A.col k).map Prod.fst) {o : Obj E} (ho : Ready q o) :
    ∃ o' s, solve c.opt c.p c.g o = some (o', s) ∧ Ready c.p o' ∧ Solves c o' s := by
  obtain ⟨⟨V, hA⟩, hwk⟩ := ho
  obtain ⟨⟨wc, wp, wh⟩, hwk⟩ := Option.isSome_iff_exists.mp hwk
  obtain ⟨S, e, hS⟩ : ∃ S, constructA c.opt.reuse N M c.p.A o.mA = some S ∧
      Holds S N (M + N) (stackPat M (patt c.p.A)) (stackVal M c.p.A.coeff) := by
    unfold constructA
    by_cases hr : c.opt.reuse = true
    · rw [if_pos hr]; exact constructA_reuse hw hA (h2 hr)
    · rw [if_neg hr]; exact constructAFresh_holds hw.holds o.mA
  have hsame := same_of_holds (p := c.p) hw.holds hS
  unfold solve
  rw [e, Option.bind_some]
  simp only [h1, if_true]
  rcases hg : c.g with _ | ⟨gx, gy⟩
  all_goals
    simp only [warm, hwk, setGuess, finish, Option.map_some]
    exact ⟨_, _, rfl, ⟨⟨_, hS⟩, rfl⟩, _, _, _, _, _, rfl, hsame, rfl, rfl, rfl, rfl, rfl, rfl⟩

theorem run_aux (l : List (Call E)) : ∀ (prev : Option (SparseQP K N M)) (s : Obj E × Status) (c : Call E), Regular prev (l ++ [c]) →
    (prev = none → Fresh s.1) → (∀ q, prev = some q → Ready q s.1) → ∃ o' s', run (l ++ [c]) s = some (o', s') ∧ Solves c o' s' := by
  induction l with
  | nil =>
    intro prev s c hl hn hs
    have key : ∃ o' s', solve c.opt c.p c.g s.1 = some (o', s') ∧ Ready c.p o' ∧ Solves c o' s' := by
      cases prev with
      | none => exact first_call hl.1 hl.2.1 hl.2.2.1 (hn rfl)
      | some q => exact later_call hl.1 hl.2.1 hl.2.2.1 (hs q rfl)
    obtain ⟨o', s', e, -, h⟩ := key
    refine ⟨o', s', ?_, h⟩
    simp only [List.nil_append, run, e, Option.bind_some]
  | cons d l ih =>
    intro prev s c hl hn hs
    have key : (∃ o' s', solve d.opt d.p d.g s.1 = some (o', s') ∧ Ready d.p o' ∧ Solves d o' s') ∧ Regular (some d.p) (l ++ [c]) := by
      cases prev with
      | none => exact ⟨first_call hl.1 hl.2.1 hl.2.2.1 (hn rfl), hl.2.2.2⟩
      | some q => exact ⟨later_call hl.1 hl.2.1 hl.2.2.1 (hs q rfl), hl.2.2.2⟩
    obtain ⟨⟨o', s', e, hr, -⟩, hl'⟩ := key
    obtain ⟨o'', s'', e2, h2⟩ := ih (some d.p) (o', s') c hl' (by simp) (by rintro q hq; cases hq; exact hr)
    refine ⟨o'', s'', ?_, h2⟩
    simp only [List.cons_append, run, e, Option.bind_some, e2]

/-- C113. Every call of a regular history succeeds in handing OSQP a problem with the feasible points, objective and KKT points of the QP of that
call. -/
theorem osqp_problem (l : List (Call E)) (c : Call E) (hl : Regular none (l ++ [c])) (o : Obj E) (ho : Fresh o) (s0 : Status) :
    ∃ o' s, run (l ++ [c]) (o, s0) = some (o', s) ∧ Solves c o' s :=
  run_aux l none (o, s0) c hl (fun _ => ho) (by simp)

/-- OSQP returns KKT points when it reports a solution. -/
def Exact (E : Engine K N M) : Prop := ∀ cfg h (pr : Prob K N M),
  (E.run cfg h pr).2.status = .solved ∨ (E.run cfg h pr).2.status = .solvedInaccurate → pr.toRow.KKT (E.run cfg h pr).2.x (E.run cfg h pr).2.y

theorem mapStatus_solved {s : OsqpStatus} (h : mapStatus s = .SOLVED) : s = .solved ∨ s = .solvedInaccurate := by
  cases s <;> simp_all [mapStatus]

/-- C113. If OSQP is exact, a call that returns SOLVED leaves a KKT point of the QP of that call, and for a convex QP a minimiser. -/
theorem osqp_solved_kkt (hE : Exact E) {l : List (Call E)} {c : Call E} (hl : Regular none (l ++ [c])) {o o' : Obj E} (ho : Fresh o)
    {s0 : Status} (h : run (l ++ [c]) (o, s0) = some (o', .SOLVED)) : c.p.toQP.KKT o'.x (split o'.y) ∧
      (c.p.toQP.Convex → ∀ w, c.p.toQP.Feasible w → c.p.toQP.objective o'.x ≤ c.p.toQP.objective w) := by
  obtain ⟨o1, s1, e, cfg, hid, hid', pr, r, h1, h2, h3, h4, h5, -⟩ := osqp_problem l c hl o ho s0
  rw [e] at h
  cases h
  have hk := hE cfg hid pr (by rw [h1]; exact mapStatus_solved h5.symm)
  rw [h1] at hk
  have hk' : c.p.toQP.KKT o'.x (split o'.y) := by
    rw [h3, h4]; exact (h2.kkt _ _).mp hk
  refine ⟨hk', fun hc w hw => ?_⟩
  obtain ⟨g0, hn⟩ := hk'
  have hge := QP.objective_ge _ hc o'.x w
  rw [QP.feasible_iff] at hw
  have hd := QP.normalCone_le hn hw
  rw [QP.lagrangianGradient_eq] at g0
  have hdot : (c.p.toQP.H *ᵥ o'.x + c.p.toQP.h) ⬝ᵥ (w - o'.x) = - (split o'.y ⬝ᵥ c.p.toQP.rows (w - o'.x)) := by
    rw [← QP.adjoint_dot, ← neg_dotProduct]
    congr 1
    exact eq_neg_of_add_eq_zero_left g0
  rw [hdot, QP.rows_sub] at hge
  have : split o'.y ⬝ᵥ (c.p.toQP.rows w - c.p.toQP.rows o'.x) ≤ 0 := by
    simpa using hd
  linarith

/-- OSQP's dual residual is the largest component of its stationarity residual. -/
def DualResidual (E : Engine K N M) : Prop := ∀ cfg h (pr : Prob K N M),
  (E.run cfg h pr).2.duaRes = infNorm (pr.toRow.stationarity (E.run cfg h pr).2.x (E.run cfg h pr).2.y)

/-- C114. What `info()` reports as the primal residual is the dual residual: the largest component of `H x + h + Aᵀ y_A + y_box`. -/
theorem osqp_res_prim (hE : DualResidual E) {l : List (Call E)} {c : Call E} (hl : Regular none (l ++ [c])) {o o' : Obj E} (ho : Fresh o)
    {s0 s : Status} (h : run (l ++ [c]) (o, s0) = some (o', s)) :
    o'.info.resPrim = infNorm (c.p.toQP.lagrangianGradient o'.x (split o'.y)) := by
  obtain ⟨o1, s1, e, cfg, hid, hid', pr, r, h1, h2, h3, h4, h5, h6, h7, h8⟩ := osqp_problem l c hl o ho s0
  rw [e] at h
  cases h
  have hk := hE cfg hid pr
  rw [h1] at hk
  rw [h8, hk, h3, h4, ← h2.stationarity]

/-- C114. What `info()` reports as the dual residual never changes. -/
theorem osqp_res_dual (l : List (Call E)) : ∀ {o o' : Obj E} {s0 s : Status}, run l (o, s0) = some (o', s) →
    o'.info.resDual = o.info.resDual := by
  induction l with
  | nil => intro o o' s0 s h; cases h; rfl
  | cons c l ih =>
    intro o o' s0 s h
    simp only [run] at h
    rw [Option.bind_eq_some_iff] at h
    obtain ⟨⟨o1, s1⟩, h1, h2⟩ := h
    rw [ih h2]
    unfold solve at h1
    rw [Option.bind_eq_some_iff] at h1
    obtain ⟨mA, -, h1⟩ := h1
    have key : ∀ o2 : Obj E, finish o2 = some (o1, s1) → o1.info.resDual = o2.info.resDual := by
      intro o2 h
      unfold finish at h
      rw [Option.map_eq_some_iff] at h
      obtain ⟨⟨a, b, d⟩, -, h⟩ := h
      cases h; rfl
    have key2 : ∀ o2 : Obj E, (setGuess c.g o2).info = o2.info := by
      intro o2; unfold setGuess; split <;> rfl
    have key3 : ∀ o2 : Obj E, (initSolver o2).info = o2.info := by
      intro o2; unfold initSolver; split <;> rfl
    rw [key _ h1, key2]
    split
    · rfl
    · rw [key3]; rfl

/-- C115. A call without `warm_start` on an object that has been used before solves the problem of its workspace, whatever the caller
passes. -/
theorem osqp_second_cold {opt : Opts E} {p : SparseQP K N M} {o o' : Obj E} {s : Status} {cfg : E.Cfg} {pr : Prob K N M} {hid : E.Hid}
    (hw : o.work = some (cfg, pr, hid)) (hc : opt.warm = false) (h : solve opt p none o = some (o', s)) :
    o'.x = (E.run cfg hid pr).2.x ∧ o'.y = (E.run cfg hid pr).2.y ∧ s = mapStatus (E.run cfg hid pr).2.status := by
  unfold solve at h
  rw [Option.bind_eq_some_iff] at h
  obtain ⟨mA, -, h⟩ := h
  simp only [hc, Bool.false_eq_true, if_false, setData, initSolver, hw, setGuess, finish, Option.map_some, Option.some.injEq,
    Prod.mk.injEq] at h
  obtain ⟨rfl, rfl⟩ := h
  exact ⟨rfl, rfl, rfl⟩

/-- C115. The settings of a call on an object that has been used before have no effect on the results. -/
theorem osqp_settings_ignored {opt : Opts E} {p : SparseQP K N M} {g : Option ((Fin N → K) × (Fin (M + N) → K))} {o : Obj E}
    (hw : o.work.isSome = true) (cfg' : E.Cfg) :
    (solve { opt with cfg := cfg' } p g o).map (fun r => (r.1.x, r.1.y, r.1.info, r.1.work, r.2)) =
      (solve opt p g o).map fun r => (r.1.x, r.1.y, r.1.info, r.1.work, r.2) := by
  obtain ⟨⟨c, pr, hid⟩, hw⟩ := Option.isSome_iff_exists.mp hw
  unfold solve
  cases constructA opt.reuse N M p.A o.mA with
  | none => rfl
  | some mA =>
    simp only [Option.bind_some]
    rcases g with _ | ⟨gx, gy⟩ <;> by_cases hwm : opt.warm = true <;>
      simp [hwm, warm, setData, initSolver, hw, setGuess, finish]

/-- C115. A first call with `warm_start` has no workspace to read the results from. -/
theorem osqp_first_warm {opt : Opts E} {p : SparseQP K N M} {g : Option ((Fin N → K) × (Fin (M + N) → K))} {o : Obj E} (hw : o.work = none)
    (hc : opt.warm = true) : solve opt p g o = none := by
  unfold solve
  cases constructA opt.reuse N M p.A o.mA with
  | none => rfl
  | some mA =>
    rcases g with _ | ⟨gx, gy⟩ <;> simp [hc, warm, hw, setGuess, finish]

/-! ### Examples -/

/-- A solver that tries the unconstrained minimiser `-q` of `½ x² + q x` and gives up if it is not a solution. -/
def exE : Engine ℚ 1 1 where
  Cfg := ℚ
  Hid := Unit
  start _ _ := ()
  update _ _ := ()
  guess _ _ _ := ()
  run _ _ pr := ((), {
    x := fun _ => -pr.q 0, y := fun _ => 0, iter := 1, priRes := 0, rhoUpdates := 0, rhoEstimate := 0
    duaRes := infNorm (pr.toRow.stationarity (fun _ => -pr.q 0) fun _ => 0)
    status := if pr.P.coeff 0 0 = 1 ∧ ∀ i : Fin (1 + 1), pr.l i ≤ pr.A.coeff i 0 * -pr.q 0 ∧ pr.A.coeff i 0 * -pr.q 0 ≤ pr.u i
      then .solved else .other })

theorem exE_exact : Exact exE := by
  intro cfg h pr hs
  have hc : pr.P.coeff 0 0 = 1 ∧ ∀ i : Fin (1 + 1), pr.l i ≤ pr.A.coeff i 0 * -pr.q 0 ∧ pr.A.coeff i 0 * -pr.q 0 ≤ pr.u i := by
    by_contra hn
    simp only [exE, if_neg hn] at hs
    rcases hs with hs | hs <;> cases hs
  refine ⟨?_, fun i => ⟨?_, ?_, ?_⟩⟩
  · funext j
    fin_cases j
    simp [exE, RowQP.stationarity, Prob.toRow, Matrix.mulVec, dotProduct, hc.1]
  · simpa [exE, Prob.toRow, Matrix.mulVec, dotProduct] using hc.2 i
  · intro h; exact absurd h (lt_irrefl _)
  · intro h; exact absurd h (lt_irrefl _)

theorem exE_residual : DualResidual exE := fun _ _ _ => rfl

/-- The 1 by 1 matrix `v`. -/
def ex1 (v : ℚ) : Csc ℚ := ⟨fun c => c, fun _ => 1, fun _ => 0, fun _ => v⟩

/-- minimise `½ x² + h x` subject to `-1 ≤ a x ≤ 1`, `-4 ≤ x ≤ b`. -/
def exP (h a b : ℚ) : SparseQP ℚ 1 1 := ⟨ex1 1, fun _ => h, ex1 a, fun _ => -1, fun _ => 1, fun _ => -4, fun _ => b⟩

/-- A new object. -/
def exO : Obj exE := ⟨fun _ => 0, fun _ => 0, Info.default, ex1 0, (0 : ℚ), ⟨none, fun _ => 0, none, fun _ => 0, fun _ => 0⟩, none⟩

/-- Two calls: the first cold, the second warm with another constraint matrix of the same pattern. -/
def exCalls : List (Call exE) := [⟨⟨(1 : ℚ), false, false⟩, exP 1 1 4, none⟩, ⟨⟨(2 : ℚ), true, true⟩, exP 2 (1 / 2) 4, none⟩]

theorem ex1_wf (v : ℚ) : WF (ex1 v) 1 1 := by
  intro c hc
  obtain rfl : c = 0 := by omega
  refine ⟨le_rfl, ?_, ?_⟩ <;> simp [ex1, Csc.col]

example : Regular none exCalls ∧ Fresh exO ∧
    ((run exCalls (exO, .UNSOLVED)).map fun r => (r.1.x 0, r.2)) = some (-2, .SOLVED) := by
  refine ⟨⟨ex1_wf _, rfl, rfl, ex1_wf _, rfl, fun _ k hk => rfl, trivial⟩, ⟨rfl, rfl, rfl⟩, ?_⟩
  decide +kernel

/-- The second call cold: the answer to the first problem is returned as SOLVED although it violates `x ≤ -2` by one. -/
example : ((run [⟨⟨(1 : ℚ), false, false⟩, exP 1 1 4, none⟩, ⟨⟨(2 : ℚ), false, false⟩, exP 2 (1 / 2) (-2), none⟩] (exO, .UNSOLVED)).map
    fun r => (r.1.x 0, r.2)) = some (-1, .SOLVED) ∧ ¬ (exP 2 (1 / 2) (-2)).toQP.Feasible fun _ => -1 := by
  refine ⟨by decide +kernel, fun h => ?_⟩
  have := (h.2 0).2
  norm_num [SparseQP.toQP, exP] at this

/-- OSQP stops at an infeasible point with a small dual residual: `info()` reports the primal residual 0. -/
example : ((run [⟨⟨(1 : ℚ), false, false⟩, exP 2 1 4, none⟩] (exO, .UNSOLVED)).map
    fun r => (r.1.x 0, r.1.info.resPrim, r.1.info.resDual, r.2)) = some (-2, 0, 1, .UNSOLVED) ∧ ¬ (exP 2 1 4).toQP.Feasible fun _ => -2 := by
  refine ⟨by decide +kernel, fun h => ?_⟩
  have := (h.1 0).1
  norm_num [SparseQP.toQP, exP, Matrix.mulVec, dotProduct, ex1, Csc.coeff, Csc.col] at this

end PolyMPC.Osqp
