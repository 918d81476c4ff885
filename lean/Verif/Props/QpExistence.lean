import Verif.Lemmas.Farkas
import Verif.Props.AdmmConvergence
import Verif.Props.BoxAdmmRefines
import Verif.Props.AdmmSparse
import Verif.Props.SqpQuadratic

/-!
# Property C166: feasibility is all that the solvers need

The convergence theorems of the QP solvers assume that an optimal pair of point and multipliers exists. Over the reals it does whenever the program is feasible.
-/

set_option linter.unusedSectionVars false

namespace PolyMPC.Spec.QP
open Matrix

/-- An optimal pair of a convex program gives a minimiser. -/
theorem KKT.minimises {K : Type*} [Field K] [LinearOrder K] [IsStrictOrderedRing K] {N M : ℕ} {qp : QP K N M} (hc : qp.Convex) {x : Fin N → K}
    {y : Fin M ⊕ Fin N → K} (h : qp.KKT x y) : qp.Feasible x ∧ ∀ w, qp.Feasible w → qp.objective x ≤ qp.objective w := by
  refine ⟨(feasible_iff _ _).2 fun i => (h.2 i).1, fun w hw => ?_⟩
  have h1 := qp.objective_ge hc x w
  have h2 := normalCone_le h.2 ((qp.feasible_iff w).mp hw)
  have h3 : qp.lagrangianGradient x y ⬝ᵥ (w - x) = 0 := by rw [h.1, zero_dotProduct]
  rw [lagrangianGradient_eq, add_dotProduct, adjoint_dot, rows_sub] at h3
  linarith

end PolyMPC.Spec.QP

namespace PolyMPC.Admm
open Matrix PolyMPC.Spec PolyMPC.QPBase Filter Topology

variable {N M : ℕ}
variable {both : Bool} {lin : KktMat ℝ N M → (KktIdx N M → ℝ) → (KktIdx N M → ℝ)} {sq : ℝ → ℝ} {cfg : Settings ℝ}
  {qp : QP ℝ N M} {xg : Fin N → ℝ} {yg : Fin M ⊕ Fin N → ℝ} {old : State ℝ N M}

/-- **C166** (ADMM, iterates). On every feasible convex QP the iterates converge to a point that minimises the objective over the feasible points, and to
multipliers that certify it. -/
theorem feasible_converges (hex : ExactSolver both lin) (hconv : qp.Convex) (hf : ∃ x, qp.Feasible x)
    (hsig : 0 < cfg.sigma) (hrho : 0 < cfg.rho) (ha : 0 < cfg.alpha) (ha2 : cfg.alpha < 2) :
    ∃ xl yl, Tendsto (fun k => (iterate both lin cfg qp xg yg old k).x) atTop (𝓝 xl) ∧
      Tendsto (fun k => (iterate both lin cfg qp xg yg old k).y) atTop (𝓝 yl) ∧
      qp.KKT xl yl ∧ qp.Feasible xl ∧ ∀ w, qp.Feasible w → qp.objective xl ≤ qp.objective w := by
  obtain ⟨xl, yl, h1, h2, h3⟩ := iterates_converge_to_kkt (xg := xg) (yg := yg) (old := old) hex hconv ((QP.exists_kkt_iff hconv.1).2 hf) hsig hrho ha ha2
  exact ⟨xl, yl, h2, h3, h1, h1.minimises hconv⟩

/-- **C166** (ADMM, status). On every feasible convex QP the solver reports SOLVED once it may take enough iterations. -/
theorem feasible_eventually_solved (hex : ExactSolver both lin) (hconv : qp.Convex) (hf : ∃ x, qp.Feasible x)
    (hsig : 0 < cfg.sigma) (hrho : 0 < cfg.rho) (ha : 0 < cfg.alpha) (ha2 : cfg.alpha < 2)
    (hadapt : cfg.adaptiveRho = false) (hcheck : cfg.checkTermination ≠ 0) (heps : 0 < cfg.epsAbs)
    (hrel : 0 ≤ cfg.epsRel) :
    ∃ n : ℤ, ∀ maxIter ≥ n, ∃ st, solve both lin sq { cfg with maxIter := maxIter } qp xg yg old = some st ∧
      st.info.status = .SOLVED :=
  eventually_solved hex hconv ((QP.exists_kkt_iff hconv.1).2 hf) hsig hrho ha ha2 hadapt hcheck heps hrel

/-- Nonconvex programs have multipliers too: minimise `-x²/2` over `[-1, 2]`, where the minimiser `2` has the multiplier `2`. -/
example : ∃ x y, (⟨fun _ _ => -1, 0, fun i => i.elim0, fun i => i.elim0, fun i => i.elim0, fun _ => -1, fun _ => 2⟩ : QP ℝ 1 0).KKT x y :=
  (QP.exists_kkt_iff (by ext i j; rfl)).2 ⟨0, fun i => i.elim0, fun _ => by norm_num⟩

/-- A linear program with `n + 1` variables in the unit box whose sum is one: the only thing to check is that it has a feasible point. -/
example (n : ℕ) (price : Fin (n + 1) → ℝ) (xg : Fin (n + 1) → ℝ) (yg : Fin 1 ⊕ Fin (n + 1) → ℝ) (old : State ℝ (n + 1) 1) :
    ∃ m : ℤ, ∀ maxIter ≥ m, ∃ st, solve true (fun A b => (effective true A)⁻¹ *ᵥ b) Real.sqrt { (Settings.default : Settings ℝ) with maxIter := maxIter }
      ⟨0, price, Matrix.of fun _ _ => 1, 1, 1, 0, 1⟩ xg yg old = some st ∧ st.info.status = .SOLVED := by
  refine feasible_eventually_solved (fun A b hdet => ?_) ⟨transpose_zero, fun x => by rw [zero_mulVec, dotProduct_zero]⟩ ⟨Pi.single 0 1, fun i => ?_, fun i => ?_⟩
    ?_ ?_ ?_ ?_ rfl ?_ ?_ ?_
  · rw [Matrix.mulVec_mulVec, Matrix.mul_nonsing_inv _ (isUnit_iff_ne_zero.mpr hdet), Matrix.one_mulVec]
  · have : ((Matrix.of fun _ _ => 1 : Matrix (Fin 1) (Fin (n + 1)) ℝ) *ᵥ Pi.single 0 1) i = 1 := by rw [mulVec_single_one]; rfl
    exact ⟨this.symm.le, this.le⟩
  · rcases eq_or_ne i 0 with rfl | hi
    · simp
    · simp [hi]
  all_goals norm_num [Settings.default]

end PolyMPC.Admm

namespace PolyMPC.BoxAdmm
open Matrix PolyMPC.Spec PolyMPC.QPBase Filter Topology

variable {N M : ℕ}
variable {both : Bool} {lin : KktMat ℝ N M → (KktIdx N M → ℝ) → (KktIdx N M → ℝ)} {sq : ℝ → ℝ} {cfg : Settings ℝ}
  {qp : QP ℝ N M} {xg : Fin N → ℝ} {yg : Fin M ⊕ Fin N → ℝ} {old : State ℝ N M}

/-- **C166** (boxADMM, iterates). -/
theorem feasible_converges (hex : ExactSolver both lin) (hconv : qp.Convex) (hf : ∃ x, qp.Feasible x)
    (hsig : 0 < cfg.sigma) (hrho : 0 < cfg.rho) (halpha : cfg.alpha = 1) (ho : CleanCorner old.kkt) :
    ∃ xl yl, Tendsto (fun k => (iterate both lin cfg qp xg yg old k).x) atTop (𝓝 xl) ∧
      Tendsto (fun k => (iterate both lin cfg qp xg yg old k).y) atTop (𝓝 yl) ∧
      qp.KKT xl yl ∧ qp.Feasible xl ∧ ∀ w, qp.Feasible w → qp.objective xl ≤ qp.objective w := by
  obtain ⟨xl, yl, h1, h2, h3⟩ := iterates_converge_to_kkt (xg := xg) (yg := yg) (old := old) hex hconv ((QP.exists_kkt_iff hconv.1).2 hf) hsig hrho halpha ho
  exact ⟨xl, yl, h2, h3, h1, h1.minimises hconv⟩

/-- **C166** (boxADMM, status). -/
theorem feasible_eventually_solved (hex : ExactSolver both lin) (hconv : qp.Convex) (hf : ∃ x, qp.Feasible x)
    (hsig : 0 < cfg.sigma) (hrho : 0 < cfg.rho) (halpha : cfg.alpha = 1) (ho : CleanCorner old.kkt)
    (hadapt : cfg.adaptiveRho = false) (hcheck : cfg.checkTermination ≠ 0) (heps : 0 < cfg.epsAbs)
    (hrel : 0 ≤ cfg.epsRel) :
    ∃ n : ℤ, ∀ maxIter ≥ n, ∃ st, solve both lin sq { cfg with maxIter := maxIter } qp xg yg old = some st ∧
      st.info.status = .SOLVED :=
  eventually_solved hex hconv ((QP.exists_kkt_iff hconv.1).2 hf) hsig hrho halpha ho hadapt hcheck heps hrel

end PolyMPC.BoxAdmm

namespace PolyMPC.AdmmSparse
open Matrix PolyMPC.Spec PolyMPC.QPBase

variable {N M : ℕ}

/-- **C166** (sparse ADMM, status): after any regular sequence of calls. -/
theorem sparse_feasible_eventually_solved {both : Bool} {lin : Admm.KktMat ℝ N M → (Admm.KktIdx N M → ℝ) → (Admm.KktIdx N M → ℝ)} {sq : ℝ → ℝ}
    (hex : Admm.ExactSolver both lin) {l : List (Call ℝ N M)} {c : Call ℝ N M} (hl : Regular both none (l ++ [c])) {o o1 : Obj ℝ N M}
    (ho : o.st.kkt = 0) (h1 : sparseRun both lin sq l o = some o1) (hconv : c.p.toQP.Convex) (hf : ∃ x, c.p.toQP.Feasible x)
    (hsig : 0 < c.cfg.sigma) (hrho : 0 < c.cfg.rho) (ha : 0 < c.cfg.alpha) (ha2 : c.cfg.alpha < 2) (hadapt : c.cfg.adaptiveRho = false)
    (hcheck : c.cfg.checkTermination ≠ 0) (heps : 0 < c.cfg.epsAbs) (hrel : 0 ≤ c.cfg.epsRel) :
    ∃ n : ℤ, ∀ maxIter ≥ n, ∃ o2, solve c.reuse both lin sq { c.cfg with maxIter := maxIter } c.p c.xg c.yg o1 = some o2 ∧
      o2.st.info.status = .SOLVED :=
  sparse_eventually_solved hex hl ho h1 hconv ((QP.exists_kkt_iff hconv.1).2 hf) hsig hrho ha ha2 hadapt hcheck heps hrel

end PolyMPC.AdmmSparse

namespace PolyMPC.Sqp
open Matrix PolyMPC.Spec PolyMPC.QuasiNewton

section Real
variable {n me mi : ℕ} {prob : Problem ℝ n me mi} {bd : Bounds ℝ n mi}

/-- **C166** (SQP, subproblem). The QP of an iteration has a solution exactly if some step satisfies the linearised constraints and the bounds. -/
theorem subproblem_solvable_iff (x : Fin n → ℝ) {H : Matrix (Fin n) (Fin n) ℝ} (hH : Hᵀ = H) :
    (∃ p y, (formQP bd x H (prob.costGrad x) (prob.jac x) (prob.constr x)).KKT p y) ↔
      ∃ p, NlpFeasible (fun i => prob.constr x (Fin.castAdd mi i) + (prob.jac x *ᵥ p) (Fin.castAdd mi i))
        (fun i => prob.constr x (Fin.natAdd me i) + (prob.jac x *ᵥ p) (Fin.natAdd me i)) bd.lbg bd.ubg (x + p) bd.lbx bd.ubx := by
  rw [QP.exists_kkt_iff (qp := formQP bd x H (prob.costGrad x) (prob.jac x) (prob.constr x)) hH]
  exact exists_congr fun p => formQP_feasible_iff bd x H (prob.costGrad x) (prob.jac x) (prob.constr x) p

variable {Q : Matrix (Fin n) (Fin n) ℝ} {q : Fin n → ℝ} {c : ℝ} {A : Matrix (Fin (me + mi)) (Fin n) ℝ} {b : Fin (me + mi) → ℝ}

/-- **C166** (SQP, quadratic programs). A quadratic program given to the SQP solver has a solution with multipliers exactly if it has a feasible point. -/
theorem IsQP.exists_stationary_iff (h : IsQP prob Q q c A b) (hQ : Qᵀ = Q) :
    (∃ x y, Stationary prob bd x y) ↔ ∃ z, NlpFeasible (prob.eq z) (prob.ineq z) bd.lbg bd.ubg z bd.lbx bd.ubx := by
  constructor
  · rintro ⟨x, y, hs⟩
    exact ⟨x, hs.2.1⟩
  · rintro ⟨z, hz⟩
    have hf : ∃ p y, (formQP bd 0 Q (prob.costGrad 0) (prob.jac 0) (prob.constr 0)).KKT p y := by
      refine (subproblem_solvable_iff 0 hQ).2 ⟨z, ?_⟩
      have e : ∀ i, prob.constr 0 i + (prob.jac 0 *ᵥ z) i = (A *ᵥ z + b) i := fun i => by
        rw [h.constr, h.jac, mulVec_zero, zero_add, Pi.add_apply, add_comm]
      simp only [e, zero_add]
      have e1 : (fun i => (A *ᵥ z + b) (Fin.castAdd mi i)) = prob.eq z := funext fun i => (h.eq z i).symm
      have e2 : (fun i => (A *ᵥ z + b) (Fin.natAdd me i)) = prob.ineq z := funext fun i => (h.ineq z i).symm
      rw [e1, e2]
      exact hz
    obtain ⟨p, y, hk⟩ := hf
    exact ⟨0 + p, y, (h.kkt_iff 0 p y).1 hk⟩

/-- **C166** (SQP, quadratic programs). A feasible strictly convex quadratic program has exactly one solution, and from every guess that satisfies the condition of C163 on the
multipliers the SQP solver returns it, if its multipliers are unique. -/
theorem IsQP.feasible_solved [NeZero n] {prec : Precond ℝ n (me + mi)} {qps : QPSolver ℝ n (me + mi)} (h : IsQP prob Q q c A b) (hQ : SPD Q) {eps : ℝ} (heps : 0 < eps)
    {cfg : Settings ℝ} (he : cfg.eta ≤ 1 / 2) (hmax : 2 ≤ cfg.maxIter) (hp : 0 ≤ cfg.epsPrim) (hd : 0 ≤ cfg.epsDual) (hl : LawfulPrecond prec)
    (hpd : ∀ m qp, ∃ r, prec.compute m qp = some r) (hex : ExactQP qps)
    (hf : ∃ z, NlpFeasible (prob.eq z) (prob.ineq z) bd.lbg bd.ubg z bd.lbx bd.ubx)
    (hu : ∀ x y y', Stationary prob bd x y → Stationary prob bd x y' → y = y') :
    ∃ xs ys, (∀ z, NlpFeasible (prob.eq z) (prob.ineq z) bd.lbg bd.ubg z bd.lbx bd.ubx → prob.cost xs ≤ prob.cost z) ∧
      NlpFeasible (prob.eq xs) (prob.ineq xs) bd.lbg bd.ubg xs bd.lbx bd.ubx ∧
      ∀ st : State ℝ n me mi prec qps, cfg.eta * infNorm ys * eps ≤ (1 / 2 - cfg.eta) * ((xs - st.x) ⬝ᵥ Q *ᵥ (xs - st.x)) →
        ∃ r, solve (defaultEnv eps cfg prob bd) st = some r ∧ r.status = .SOLVED ∧ r.iter ≤ 2 ∧ r.x = xs ∧ r.lam = ys := by
  obtain ⟨xs, ys, hs⟩ := (h.exists_stationary_iff hQ.1).2 hf
  exact ⟨xs, ys, fun z hz => h.minimises hQ hs hz, hs.2.1, fun st hgap =>
    h.solved hQ heps he hmax hp hd hl hpd hex hs (fun y hy => hu xs y ys hy hs) st hgap⟩

end Real
end PolyMPC.Sqp
