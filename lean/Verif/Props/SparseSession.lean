import Verif.Props.BoxAdmmSparse
import Verif.Props.AdmmBound
import Verif.Props.AdmmAdaptive
import Verif.Props.AdmmCycle
import Verif.Props.BoxAdmmAdaptive
import Verif.Props.BoxAdmmCycle
import Verif.Props.QpAccuracy
import Verif.Props.QpInfeasible

/-!
# Property C227: what a call on a used object with sparse matrices guarantees

The statements are about the last of several calls on one object with sparse matrices. The calls before it may be about other programs, with
other patterns and settings; `Regular` only asks that `reuse_pattern` is set after a call with the same pattern (see C107-C112 for what
happens otherwise). A new object has an empty KKT matrix.
-/

set_option linter.unusedSectionVars false

namespace PolyMPC.AdmmSparse
open Matrix PolyMPC.Spec PolyMPC.QPBase PolyMPC.Sparse

section Field
variable {K : Type} [Field K] [LinearOrder K] [IsStrictOrderedRing K] {N M : ℕ} {both : Bool} {sq : K → K}

/-! ### ADMM -/

section Admm
variable {lin : Admm.KktMat K N M → (Admm.KktIdx N M → K) → (Admm.KktIdx N M → K)} {l : List (Call K N M)} {c : Call K N M} {o o1 o2 : Obj K N M}

/-- A result of the last call is a result of the dense solver. -/
theorem sparse_dense_of_some (hl : Regular both none (l ++ [c])) (ho : o.st.kkt = 0) (h1 : sparseRun both lin sq l o = some o1)
    (h2 : solve c.reuse both lin sq c.cfg c.p c.xg c.yg o1 = some o2) : Admm.solve both lin sq c.cfg c.p.toQP c.xg c.yg o1.st = some o2.st := by
  have e := sparse_last (lin := lin) (sq := sq) hl ho h1
  rw [h2] at e
  exact e.symm

/-- A result of the dense solver is the result of the last call. -/
theorem sparse_some_of_dense (hl : Regular both none (l ++ [c])) (ho : o.st.kkt = 0) (h1 : sparseRun both lin sq l o = some o1) {s : Admm.State K N M}
    (h2 : Admm.solve both lin sq c.cfg c.p.toQP c.xg c.yg o1.st = some s) :
    ∃ o2, solve c.reuse both lin sq c.cfg c.p c.xg c.yg o1 = some o2 ∧ o2.st = s := by
  have e := sparse_last (lin := lin) (sq := sq) hl ho h1
  rw [h2, Option.map_eq_some_iff] at e
  exact e

/-- **C227** (ADMM). `SOLVED` certifies near-optimality among the points that satisfy the constraints. -/
theorem sparse_solved_near_optimal (hl : Regular both none (l ++ [c])) (ho : o.st.kkt = 0) (h1 : sparseRun both lin sq l o = some o1)
    (hconv : c.p.toQP.Convex) (hc : c.p.toQP.Consistent) (hrho : 0 < c.cfg.rho)
    (h2 : solve c.reuse both lin sq c.cfg c.p c.xg c.yg o1 = some o2) (hs : o2.st.info.status = .SOLVED) (w : Fin N → K) (hw : c.p.toQP.Feasible w) :
    c.p.toQP.objective o2.st.x ≤ c.p.toQP.objective w + o2.st.info.resDual * oneNorm (o2.st.x - w) + o2.st.info.resPrim * oneNorm o2.st.y :=
  Admm.solved_near_optimal hconv hc hrho (sparse_dense_of_some hl ho h1 h2) hs w hw

/-- **C227** (ADMM). For a strongly convex program the returned point is near the minimiser. -/
theorem sparse_solved_accurate (hl : Regular both none (l ++ [c])) (ho : o.st.kkt = 0) (h1 : sparseRun both lin sq l o = some o1) {m : K}
    (hm : c.p.toQP.StronglyConvex m) (hc : c.p.toQP.Consistent) (hrho : 0 < c.cfg.rho)
    (h2 : solve c.reuse both lin sq c.cfg c.p c.xg c.yg o1 = some o2) (hs : o2.st.info.status = .SOLVED)
    {xs : Fin N → K} {ys : Fin M ⊕ Fin N → K} (hk : c.p.toQP.KKT xs ys) :
    ∑ i, (o2.st.x i - xs i) ^ 2 ≤ N * (o2.st.info.resDual / m) ^ 2 + 2 * (o2.st.info.resPrim * oneNorm (o2.st.y - ys)) / m :=
  Admm.solved_accurate hm hc hrho (sparse_dense_of_some hl ho h1 h2) hs hk

end Admm

/-! ### boxADMM -/

section Box
variable {lin : BoxAdmm.KktMat K N M → (BoxAdmm.KktIdx N M → K) → (BoxAdmm.KktIdx N M → K)} {l : List (Call K N M)} {c : Call K N M}
  {o o1 o2 : BoxObj K N M}

theorem box_dense_of_some (hl : Regular both none (l ++ [c])) (ho : o.st.kkt = 0) (h1 : boxSparseRun both lin sq l o = some o1)
    (h2 : boxSolve c.reuse both lin sq c.cfg c.p c.xg c.yg o1 = some o2) : BoxAdmm.solve both lin sq c.cfg c.p.toQP c.xg c.yg o1.st = some o2.st := by
  have e := box_sparse_last (lin := lin) (sq := sq) hl ho h1
  rw [h2] at e
  exact e.symm

theorem box_some_of_dense (hl : Regular both none (l ++ [c])) (ho : o.st.kkt = 0) (h1 : boxSparseRun both lin sq l o = some o1)
    {s : BoxAdmm.State K N M} (h2 : BoxAdmm.solve both lin sq c.cfg c.p.toQP c.xg c.yg o1.st = some s) :
    ∃ o2, boxSolve c.reuse both lin sq c.cfg c.p c.xg c.yg o1 = some o2 ∧ o2.st = s := by
  have e := box_sparse_last (lin := lin) (sq := sq) hl ho h1
  rw [h2, Option.map_eq_some_iff] at e
  exact e

theorem cleanCorner_denseRun (l : List (Call K N M)) : ∀ {s s1 : BoxAdmm.State K N M}, BoxAdmm.CleanCorner s.kkt →
    boxDenseRun both lin sq l s = some s1 → BoxAdmm.CleanCorner s1.kkt := by
  induction l with
  | nil => intro s s1 h e; cases e; exact h
  | cons a l ih =>
    intro s s1 h e
    unfold boxDenseRun at e
    rw [List.foldlM_cons, Option.bind_eq_bind, Option.bind_eq_some_iff] at e
    obtain ⟨s', e1, e2⟩ := e
    exact ih (BoxAdmm.cleanCorner_solve h e1) e2

/-- The calls leave the off-diagonal entries of the lower right corner of the KKT matrix at zero. -/
theorem box_cleanCorner (hl : Regular both none (l ++ [c])) (ho : o.st.kkt = 0) (h1 : boxSparseRun both lin sq l o = some o1) :
    BoxAdmm.CleanCorner o1.st.kkt := by
  have e := box_sparse_eq_dense (lin := lin) (sq := sq) l (regular_append hl) o ho
  rw [h1] at e
  exact cleanCorner_denseRun l (fun i j _ => by rw [ho]; rfl) e.symm

/-- **C227** (boxADMM). `SOLVED` certifies near-optimality among the points that satisfy the constraints. -/
theorem box_sparse_solved_near_optimal (hl : Regular both none (l ++ [c])) (ho : o.st.kkt = 0) (h1 : boxSparseRun both lin sq l o = some o1)
    (hconv : c.p.toQP.Convex) (hc : c.p.toQP.Consistent) (hrho : 0 < c.cfg.rho)
    (h2 : boxSolve c.reuse both lin sq c.cfg c.p c.xg c.yg o1 = some o2) (hs : o2.st.info.status = .SOLVED) (w : Fin N → K) (hw : c.p.toQP.Feasible w) :
    c.p.toQP.objective o2.st.x ≤ c.p.toQP.objective w + o2.st.info.resDual * oneNorm (o2.st.x - w) + o2.st.info.resPrim * oneNorm o2.st.y :=
  BoxAdmm.solved_near_optimal hconv hc hrho (box_dense_of_some hl ho h1 h2) hs w hw

/-- **C227** (boxADMM). For a strongly convex program the returned point is near the minimiser. -/
theorem box_sparse_solved_accurate (hl : Regular both none (l ++ [c])) (ho : o.st.kkt = 0) (h1 : boxSparseRun both lin sq l o = some o1) {m : K}
    (hm : c.p.toQP.StronglyConvex m) (hc : c.p.toQP.Consistent) (hrho : 0 < c.cfg.rho)
    (h2 : boxSolve c.reuse both lin sq c.cfg c.p c.xg c.yg o1 = some o2) (hs : o2.st.info.status = .SOLVED)
    {xs : Fin N → K} {ys : Fin M ⊕ Fin N → K} (hk : c.p.toQP.KKT xs ys) :
    ∑ i, (o2.st.x i - xs i) ^ 2 ≤ N * (o2.st.info.resDual / m) ^ 2 + 2 * (o2.st.info.resPrim * oneNorm (o2.st.y - ys)) / m :=
  BoxAdmm.solved_accurate hm hc hrho (box_dense_of_some hl ho h1 h2) hs hk

/-- **C227** (boxADMM). A program without feasible points is not reported as solved if the tolerances are small enough. -/
theorem box_sparse_infeasible_not_solved {p : SparseQP K N M} (hc : p.toQP.Consistent) (hinf : ¬ ∃ x, p.toQP.Feasible x) :
    ∃ e : K, 0 < e ∧ ∀ (both : Bool) (lin : BoxAdmm.KktMat K N M → (BoxAdmm.KktIdx N M → K) → (BoxAdmm.KktIdx N M → K)) (sq : K → K)
      (l : List (Call K N M)) (c : Call K N M) (o o1 o2 : BoxObj K N M), c.p = p → Regular both none (l ++ [c]) → o.st.kkt = 0 →
      boxSparseRun both lin sq l o = some o1 → 0 < c.cfg.rho → c.cfg.epsAbs ≤ e → 0 ≤ c.cfg.epsRel → c.cfg.epsRel ≤ e →
      boxSolve c.reuse both lin sq c.cfg c.p c.xg c.yg o1 = some o2 → o2.st.info.status = .MAX_ITER_EXCEEDED := by
  obtain ⟨e, he, h⟩ := BoxAdmm.infeasible_not_solved hc hinf
  refine ⟨e, he, fun both lin sq l c o o1 o2 hp hl ho h1 hr h2 h3 h4 h5 => ?_⟩
  have := box_dense_of_some hl ho h1 h5
  rw [hp] at this
  exact h both lin sq c.cfg c.xg c.yg o1.st o2.st hr h2 h3 h4 this

end Box
end Field

section Real
variable {N M : ℕ} {both : Bool} {sq : ℝ → ℝ}

/-- The iteration limit of the last call does not matter for which histories are regular. -/
theorem regular_maxIter {c : Call ℝ N M} (m : ℤ) : ∀ (l : List (Call ℝ N M)) (prev : Option (SparseQP ℝ N M)), Regular both prev (l ++ [c]) →
    Regular both prev (l ++ [{ c with cfg := { c.cfg with maxIter := m } }]) := by
  intro l
  induction l with
  | nil => intro prev ⟨h1, h2, h3⟩; exact ⟨h1, h2, h3⟩
  | cons a l ih => intro prev ⟨h1, h2, h3⟩; exact ⟨h1, h2, ih _ h3⟩

section Admm
variable {lin : Admm.KktMat ℝ N M → (Admm.KktIdx N M → ℝ) → (Admm.KktIdx N M → ℝ)} {l : List (Call ℝ N M)} {c : Call ℝ N M} {o o1 : Obj ℝ N M}

/-- **C227** (ADMM). The number of iterations is bounded by data known before the call, whatever the object was used for. -/
theorem sparse_iteration_bound (hex : Admm.ExactSolver both lin) (hl : Regular both none (l ++ [c])) (ho : o.st.kkt = 0)
    (h1 : sparseRun both lin sq l o = some o1) (hconv : c.p.toQP.Convex) {xs : Fin N → ℝ} {ys : Fin M ⊕ Fin N → ℝ} (hk : c.p.toQP.KKT xs ys)
    (hsig : 0 < c.cfg.sigma) (hrho : 0 < c.cfg.rho) (ha : 0 < c.cfg.alpha) (ha2 : c.cfg.alpha < 2)
    (hadapt : c.cfg.adaptiveRho = false) (hcheck : 0 < c.cfg.checkTermination) (heps : 0 ≤ c.cfg.epsAbs) (hrel : 0 ≤ c.cfg.epsRel)
    {mu d : ℝ} (hmu : 0 < mu) (hmus : mu ≤ c.cfg.sigma) (hmur : ∀ j, mu ≤ Admm.stepSize c.p.toQP c.cfg.rho j) (hd : 0 < d)
    (hd1 : ∀ j, d * (1 + ∑ i, |Admm.rowEntry c.p.toQP j i|) ≤ c.cfg.epsAbs)
    (hd2 : ∀ i, d * (c.cfg.sigma + ∑ l, |c.p.toQP.H i l| + ∑ j, Admm.stepSize c.p.toQP c.cfg.rho j * |Admm.rowEntry c.p.toQP j i|) ≤ c.cfg.epsAbs)
    {L : ℕ} (hL1 : 1 ≤ L) (hL : Admm.guessError c.p.toQP c.cfg c.xg xs c.yg ys ≤ L * (c.cfg.alpha * (2 - c.cfg.alpha) * mu * d ^ 2))
    (hmax : c.cfg.checkTermination * L ≤ c.cfg.maxIter) :
    ∃ o2, solve c.reuse both lin sq c.cfg c.p c.xg c.yg o1 = some o2 ∧ o2.st.info.status = .SOLVED ∧ o2.st.info.iter ≤ c.cfg.checkTermination * L := by
  obtain ⟨s, e, hs, hi⟩ := Admm.iteration_bound (sq := sq) (old := o1.st) hex hconv hk hsig hrho ha ha2 hadapt hcheck heps hrel hmu hmus hmur hd hd1 hd2 hL1 hL hmax
  obtain ⟨o2, e2, rfl⟩ := sparse_some_of_dense hl ho h1 e
  exact ⟨o2, e2, hs, hi⟩

/-- **C227** (ADMM). With a step-size tolerance of at least `10 ^ 12` adaptation never starts, and every solvable convex program is solved. -/
theorem sparse_solved_with_large_tolerance (hex : Admm.ExactSolver both lin) (hl : Regular both none (l ++ [c])) (ho : o.st.kkt = 0)
    (h1 : sparseRun both lin sq l o = some o1) (hconv : c.p.toQP.Convex) (hkkt : ∃ x y, c.p.toQP.KKT x y)
    (hsig : 0 < c.cfg.sigma) (hr1 : 1 / 10 ^ 6 ≤ c.cfg.rho) (hr2 : c.cfg.rho ≤ 10 ^ 6) (ha : 0 < c.cfg.alpha) (ha2 : c.cfg.alpha < 2)
    (hint : c.cfg.adaptiveRhoInterval ≠ 0) (htol : 10 ^ 12 ≤ c.cfg.adaptiveRhoTolerance) (hcheck : c.cfg.checkTermination ≠ 0)
    (heps : 0 < c.cfg.epsAbs) (hrel : 0 ≤ c.cfg.epsRel) :
    ∃ n : ℤ, ∀ maxIter ≥ n, ∃ o2, solve c.reuse both lin sq { c.cfg with maxIter := maxIter } c.p c.xg c.yg o1 = some o2 ∧
      o2.st.info.status = .SOLVED := by
  obtain ⟨n, hn⟩ := Admm.solved_with_large_tolerance (sq := sq) (xg := c.xg) (yg := c.yg) (old := o1.st) hex hconv hkkt hsig hr1 hr2 ha ha2 hint htol hcheck heps hrel
  refine ⟨n, fun m hm => ?_⟩
  obtain ⟨s, e, hs⟩ := hn m hm
  obtain ⟨o2, e2, rfl⟩ := sparse_some_of_dense (c := { c with cfg := { c.cfg with maxIter := m } }) (regular_maxIter m l none hl) ho h1 e
  exact ⟨o2, e2, hs⟩

end Admm

section Box
variable {lin : BoxAdmm.KktMat ℝ N M → (BoxAdmm.KktIdx N M → ℝ) → (BoxAdmm.KktIdx N M → ℝ)} {l : List (Call ℝ N M)} {c : Call ℝ N M}
  {o o1 : BoxObj ℝ N M}

/-- **C227** (boxADMM). Every feasible convex program is solved if enough iterations are allowed. -/
theorem box_sparse_feasible_solved (hex : BoxAdmm.ExactSolver both lin) (hl : Regular both none (l ++ [c])) (ho : o.st.kkt = 0)
    (h1 : boxSparseRun both lin sq l o = some o1) (hconv : c.p.toQP.Convex) (hf : ∃ x, c.p.toQP.Feasible x)
    (hsig : 0 < c.cfg.sigma) (hrho : 0 < c.cfg.rho) (ha : c.cfg.alpha = 1) (hadapt : c.cfg.adaptiveRho = false)
    (hcheck : c.cfg.checkTermination ≠ 0) (heps : 0 < c.cfg.epsAbs) (hrel : 0 ≤ c.cfg.epsRel) :
    ∃ n : ℤ, ∀ maxIter ≥ n, ∃ o2, boxSolve c.reuse both lin sq { c.cfg with maxIter := maxIter } c.p c.xg c.yg o1 = some o2 ∧
      o2.st.info.status = .SOLVED := by
  obtain ⟨n, hn⟩ := BoxAdmm.eventually_solved (sq := sq) (xg := c.xg) (yg := c.yg) (old := o1.st) hex hconv
    ((QP.exists_kkt_iff hconv.1).2 hf) hsig hrho ha (box_cleanCorner hl ho h1) hadapt hcheck heps hrel
  refine ⟨n, fun m hm => ?_⟩
  obtain ⟨s, e, hs⟩ := hn m hm
  obtain ⟨o2, e2, rfl⟩ := box_some_of_dense (c := { c with cfg := { c.cfg with maxIter := m } }) (regular_maxIter m l none hl) ho h1 e
  exact ⟨o2, e2, hs⟩

/-- **C227** (boxADMM). The number of iterations is bounded by data known before the call, whatever the object was used for. -/
theorem box_sparse_iteration_bound (hex : BoxAdmm.ExactSolver both lin) (hl : Regular both none (l ++ [c])) (ho : o.st.kkt = 0)
    (h1 : boxSparseRun both lin sq l o = some o1) (hconv : c.p.toQP.Convex) {xs : Fin N → ℝ} {ys : Fin M ⊕ Fin N → ℝ} (hk : c.p.toQP.KKT xs ys)
    (hsig : 0 < c.cfg.sigma) (hrho : 0 < c.cfg.rho) (halpha : c.cfg.alpha = 1)
    (hadapt : c.cfg.adaptiveRho = false) (hcheck : 0 < c.cfg.checkTermination) (heps : 0 ≤ c.cfg.epsAbs) (hrel : 0 ≤ c.cfg.epsRel)
    {mu d : ℝ} (hmu : 0 < mu) (hmus : mu ≤ c.cfg.sigma) (hmur : ∀ j, mu ≤ Admm.stepSize c.p.toQP c.cfg.rho j) (hd : 0 < d)
    (hd0 : 2 * d ≤ c.cfg.epsAbs) (hd1 : ∀ j, d * (1 + ∑ i, |c.p.toQP.A j i|) + 2 * d ≤ c.cfg.epsAbs)
    (hd2 : ∀ i, d * (c.cfg.sigma + ∑ l, |c.p.toQP.H i l| + ∑ j, Admm.stepSize c.p.toQP c.cfg.rho j * |Admm.rowEntry c.p.toQP j i|) ≤ c.cfg.epsAbs)
    {L : ℕ} (hL1 : 1 ≤ L) (hL : Admm.guessError c.p.toQP c.cfg c.xg xs c.yg ys ≤ L * (mu * d ^ 2))
    (hmax : c.cfg.checkTermination * L ≤ c.cfg.maxIter) :
    ∃ o2, boxSolve c.reuse both lin sq c.cfg c.p c.xg c.yg o1 = some o2 ∧ o2.st.info.status = .SOLVED ∧ o2.st.info.iter ≤ c.cfg.checkTermination * L := by
  obtain ⟨s, e, hs, hi⟩ := BoxAdmm.iteration_bound (sq := sq) (old := o1.st) hex hconv hk hsig hrho halpha (box_cleanCorner hl ho h1) hadapt hcheck heps hrel hmu
    hmus hmur hd hd0 hd1 hd2 hL1 hL hmax
  obtain ⟨o2, e2, rfl⟩ := box_some_of_dense hl ho h1 e
  exact ⟨o2, e2, hs, hi⟩

end Box

/-! ### The step size that never settles -/

/-- minimise `5 x` subject to `-1 ≤ 2 x ≤ 20`, `0 ≤ x ≤ 10`, with a Hessian without entries. -/
noncomputable def sparseLp : SparseQP ℝ 1 1 where
  H := ⟨fun _ => 0, fun _ => 0, fun _ => 0, fun _ => 0⟩
  h := fun _ => 5
  A := ⟨fun c => c, fun c => if c = 0 then 1 else 0, fun _ => 0, fun _ => 2⟩
  Alb := fun _ => -1
  Aub := fun _ => 20
  xlb := fun _ => 0
  xub := fun _ => 10

theorem sparseLp_wf : WF sparseLp.H 1 1 ∧ WF sparseLp.A 1 1 := by
  constructor <;> intro c hc <;> obtain rfl : c = 0 := by omega
  · refine ⟨le_rfl, ?_, ?_⟩ <;> simp [sparseLp, Csc.col]
  · refine ⟨le_rfl, ?_, ?_⟩ <;> simp [sparseLp, Csc.col]

theorem sparseLp_toQP : sparseLp.toQP = AdmmCycle.lp := by
  have hH : (fun i j => sparseLp.H.coeff i j : Matrix (Fin 1) (Fin 1) ℝ) = 0 := by
    funext i j
    simp [sparseLp, Csc.coeff, Csc.col]
  have hA : (fun i j => sparseLp.A.coeff i j : Matrix (Fin 1) (Fin 1) ℝ) = fun _ _ => 2 := by
    funext i j
    obtain rfl : i = 0 := Subsingleton.elim _ _
    obtain rfl : j = 0 := Subsingleton.elim _ _
    simp [sparseLp, Csc.coeff, Csc.col]
  unfold SparseQP.toQP
  rw [hH, hA]
  rfl

/-- The call without guess, with the default settings but `adaptive_rho = true` and the iteration limit `n`. -/
noncomputable def lpCall (n : ℤ) : Call ℝ 1 1 := ⟨false, AdmmCycle.adaptive n, sparseLp, fun _ => 0, fun _ => 0⟩

theorem lpCall_regular {l : List (Call ℝ 1 1)} (n : ℤ) : ∀ {prev : Option (SparseQP ℝ 1 1)}, Regular both prev l → Regular both prev (l ++ [lpCall n]) := by
  induction l with
  | nil => intro prev _; exact ⟨sparseLp_wf, (fun h => Bool.noConfusion h), trivial⟩
  | cons a l ih => intro prev ⟨h1, h2, h3⟩; exact ⟨h1, h2, ih h3⟩

/-- **C227** (ADMM). With `adaptive_rho` a sparse object returns `MAX_ITER_EXCEEDED` on the feasible linear program, for every iteration limit and
whatever it was used for before. -/
theorem sparse_adaptive_never_solved {lin : Admm.KktMat ℝ 1 1 → (Admm.KktIdx 1 1 → ℝ) → (Admm.KktIdx 1 1 → ℝ)} (hex : Admm.ExactSolver both lin)
    {l : List (Call ℝ 1 1)} (hl : Regular both none l) {o o1 : Obj ℝ 1 1} (ho : o.st.kkt = 0) (h1 : sparseRun both lin Real.sqrt l o = some o1) (n : ℤ) :
    ∃ o2, solve false both lin Real.sqrt (AdmmCycle.adaptive n) sparseLp (fun _ => 0) (fun _ => 0) o1 = some o2 ∧
      o2.st.info.status = .MAX_ITER_EXCEEDED := by
  obtain ⟨s, e, hs⟩ := AdmmCycle.adaptive_never_solved hex o1.st n
  have e' : Admm.solve both lin Real.sqrt (lpCall n).cfg (lpCall n).p.toQP (lpCall n).xg (lpCall n).yg o1.st = some s := by
    show Admm.solve both lin Real.sqrt (AdmmCycle.adaptive n) sparseLp.toQP _ _ _ = _
    rw [sparseLp_toQP]
    exact e
  obtain ⟨o2, e2, rfl⟩ := sparse_some_of_dense (c := lpCall n) (lpCall_regular n hl) ho h1 e'
  exact ⟨o2, e2, hs⟩

/-- **C227** (boxADMM). The same for boxADMM. -/
theorem box_sparse_adaptive_never_solved {lin : BoxAdmm.KktMat ℝ 1 1 → (BoxAdmm.KktIdx 1 1 → ℝ) → (BoxAdmm.KktIdx 1 1 → ℝ)}
    (hex : BoxAdmm.ExactSolver both lin) {l : List (Call ℝ 1 1)} (hl : Regular both none l) {o o1 : BoxObj ℝ 1 1} (ho : o.st.kkt = 0)
    (h1 : boxSparseRun both lin Real.sqrt l o = some o1) (n : ℤ) :
    ∃ o2, boxSolve false both lin Real.sqrt (AdmmCycle.adaptive n) sparseLp (fun _ => 0) (fun _ => 0) o1 = some o2 ∧
      o2.st.info.status = .MAX_ITER_EXCEEDED := by
  obtain ⟨s, e, hs⟩ := BoxAdmmCycle.adaptive_never_solved hex o1.st n
  have e' : BoxAdmm.solve both lin Real.sqrt (lpCall n).cfg (lpCall n).p.toQP (lpCall n).xg (lpCall n).yg o1.st = some s := by
    show BoxAdmm.solve both lin Real.sqrt (AdmmCycle.adaptive n) sparseLp.toQP _ _ _ = _
    rw [sparseLp_toQP]
    exact e
  obtain ⟨o2, e2, rfl⟩ := box_some_of_dense (c := lpCall n) (lpCall_regular n hl) ho h1 e'
  exact ⟨o2, e2, hs⟩

end Real

/-! ## Non-vacuity -/

/-- Two calls with the same pattern, the second with `reuse_pattern`: a regular history for a strongly convex program with one variable, whose
data satisfy the hypotheses above. -/
noncomputable def sparseQp : SparseQP ℝ 1 1 where
  H := ⟨fun c => c, fun c => if c = 0 then 1 else 0, fun _ => 0, fun _ => 1⟩
  h := fun _ => -1
  A := ⟨fun c => c, fun c => if c = 0 then 1 else 0, fun _ => 0, fun _ => 2⟩
  Alb := fun _ => -1
  Aub := fun _ => 20
  xlb := fun _ => 0
  xub := fun _ => 10

theorem sparseQp_wf : WF sparseQp.H 1 1 ∧ WF sparseQp.A 1 1 := by
  constructor <;> intro c hc <;> obtain rfl : c = 0 := by omega
  · refine ⟨le_rfl, ?_, ?_⟩ <;> simp [sparseQp, Csc.col]
  · refine ⟨le_rfl, ?_, ?_⟩ <;> simp [sparseQp, Csc.col]

example : Regular false none ([⟨false, Settings.default, sparseQp, fun _ => 3, fun _ => 0⟩] ++
    [(⟨true, Settings.default, sparseQp, fun _ => 0, fun _ => 0⟩ : Call ℝ 1 1)]) :=
  ⟨sparseQp_wf, (fun h => Bool.noConfusion h), sparseQp_wf,
    fun _ => ⟨rfl, ⟨_, rfl, fun c _ => ⟨rfl, rfl⟩⟩, fun i hi => by obtain rfl : i = 0 := by omega
                                                                   simp [Stored, sparseQp, Csc.col]⟩, trivial⟩

example : sparseQp.toQP.Convex ∧ sparseQp.toQP.Consistent ∧ sparseQp.toQP.StronglyConvex 1 ∧ sparseQp.toQP.KKT (fun _ => 1) (fun _ => 0) := by
  have hH : sparseQp.toQP.H = fun _ _ => 1 := by
    funext i j
    obtain rfl : i = 0 := Subsingleton.elim _ _
    obtain rfl : j = 0 := Subsingleton.elim _ _
    simp [SparseQP.toQP, sparseQp, Csc.coeff, Csc.col]
  have hA : sparseQp.toQP.A = fun _ _ => 2 := by
    funext i j
    obtain rfl : i = 0 := Subsingleton.elim _ _
    obtain rfl : j = 0 := Subsingleton.elim _ _
    simp [SparseQP.toQP, sparseQp, Csc.coeff, Csc.col]
  have hrow : ∀ x : Fin 1 → ℝ, (sparseQp.toQP.H *ᵥ x) 0 = x 0 := fun x => by simp [hH, Matrix.mulVec, dotProduct]
  refine ⟨⟨?_, fun x => ?_⟩, ?_, ⟨one_pos, fun v => ?_⟩, ?_, ?_⟩
  · rw [hH]; rfl
  · simp only [dotProduct, Fin.sum_univ_one, hrow]; exact mul_self_nonneg _
  · rintro (i | i) <;> simp [SparseQP.toQP, sparseQp, QP.lower, QP.upper] <;> norm_num
  · simp only [dotProduct, Fin.sum_univ_one, hrow, one_mul, pow_two]; exact le_rfl
  · funext i
    obtain rfl : i = 0 := Subsingleton.elim _ _
    simp [QP.lagrangianGradient, hH, QP.yA, QP.yBox, Matrix.mulVec, dotProduct]
    simp [SparseQP.toQP, sparseQp]
  · rintro (i | i)
    · simp [QP.rows, hA, Matrix.mulVec, dotProduct, QP.lower, QP.upper]
      simp [SparseQP.toQP, sparseQp]; norm_num
    · simp [QP.rows, QP.lower, QP.upper]
      simp [SparseQP.toQP, sparseQp]

end PolyMPC.AdmmSparse
