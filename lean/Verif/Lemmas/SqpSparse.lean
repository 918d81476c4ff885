import Verif.Model.SqpSparse
import Verif.Spec.BlockBfgs
import Verif.Props.OcpSparseBfgs
import Verif.Props.OcpSparseHess
import Verif.Props.BoxAdmmSparse
import Verif.Props.MpcLinear

/-!
# One iteration of the sparse SQP solver compared with the dense one
-/

set_option linter.unusedSectionVars false

namespace PolyMPC.BoxAdmm
open Matrix PolyMPC.Spec PolyMPC.QPBase

variable {K : Type*} [Field K] [LinearOrder K] [IsStrictOrderedRing K] {N M : ℕ} {both : Bool}
  {lin : KktMat K N M → (KktIdx N M → K) → (KktIdx N M → K)} {sq : K → K} {cfg : Settings K} {qp : QP K N M}

theorem body_not_ub (hI : cfg.adaptiveRho = true → cfg.adaptiveRhoInterval ≠ 0) (iter : ℤ) (st : State K N M) : body lin sq cfg qp iter st ≠ .ub := by
  unfold body
  dsimp only
  generalize (if checkNow cfg iter = true then residualsUpdate qp (admmUpdate lin cfg qp st) else admmUpdate lin cfg qp st) = st2
  by_cases c1 : (checkNow cfg iter && terminationCriteria cfg st2) = true
  · rw [if_pos c1]; simp
  · rw [if_neg c1]
    by_cases c2 : cfg.adaptiveRho = true
    · rw [if_pos c2, if_neg (hI c2)]
      split_ifs <;> simp
    · rw [if_neg c2]; simp

theorem loop_total (hI : cfg.adaptiveRho = true → cfg.adaptiveRhoInterval ≠ 0) (n : ℕ) (iter : ℤ) (st : State K N M) :
    ∃ r, loop lin sq cfg qp n iter st = some r := by
  induction n generalizing iter st with
  | zero => exact ⟨_, rfl⟩
  | succ n ih =>
    unfold loop
    have h := body_not_ub (lin := lin) (sq := sq) (qp := qp) hI iter st
    rcases hb : body lin sq cfg qp iter st with _ | s | s
    · exact absurd hb h
    · exact ⟨_, rfl⟩
    · exact ih _ _

theorem solve_total (hI : cfg.adaptiveRho = true → cfg.adaptiveRhoInterval ≠ 0) (xg : Fin N → K) (yg : Fin M ⊕ Fin N → K) (old : State K N M) :
    ∃ s, solve both lin sq cfg qp xg yg old = some s := by
  obtain ⟨⟨it, st⟩, e⟩ := loop_total (lin := lin) (sq := sq) (qp := qp) hI cfg.maxIter.toNat 1 (setup both cfg qp xg yg old)
  unfold solve
  rw [e]
  exact ⟨_, rfl⟩

end PolyMPC.BoxAdmm

namespace PolyMPC.SqpSparse
open Ocp MpcSqp Sparse Sparse.Csc Spec AdmmSparse Matrix QuasiNewton

theorem boxQps_solve {N M : ℕ} {both : Bool} {lin : BoxAdmm.KktMat ℝ N M → (BoxAdmm.KktIdx N M → ℝ) → (BoxAdmm.KktIdx N M → ℝ)} {sq : ℝ → ℝ}
    {cfg : QPBase.Settings ℝ} {qp : QP ℝ N M} {mem s : BoxAdmm.State ℝ N M} (h : BoxAdmm.solve both lin sq cfg qp 0 0 mem = some s) :
    (boxQps both lin sq cfg).solve mem qp = (s, s.x, s.y, s.info.iter) := by
  simp only [boxQps]
  rw [h]

variable {d : Dims}

/-- The Hessian update of the dense solver to compare with. -/
noncomputable def blockBfgs (d : Dims) : Matrix (Fin d.VAR) (Fin d.VAR) ℝ → (Fin d.VAR → ℝ) → (Fin d.VAR → ℝ) → Option (Matrix (Fin d.VAR) (Fin d.VAR) ℝ) :=
  maskedBfgs fun i j => Linked d i j

theorem ext_fin (v : Fin d.VAR → ℝ) : fin d (Spec.ext v) = v := by
  funext i
  show Spec.ext v i = v i
  unfold Spec.ext
  rw [dif_pos i.2]

/-- The sparse update of the Hessian represents the masked update. -/
theorem hessianUpdate_dense {H : Csc ℝ} {M : ℕ → ℕ → ℝ} (hH : HesForm d H M) (s y : ℕ → ℝ) :
    (hessianUpdate d H s y).map (hesMat d) = blockBfgs d (hesMat d H) (fin d s) (fin d y) ∧
    ∀ H', hessianUpdate d H s y = some H' → ∃ M', HesForm d H' M' := by
  have hv : hesMat d H *ᵥ fin d s = fin d (mulVec d H s) := (mulVec_fin hH s).symm
  have hp := pair_fin d (mulVec d H s) s y
  unfold blockBfgs maskedBfgs
  rw [hv, hp, ← dot_fin]
  by_cases h0 : dotVar d s (mulVec d H s) = 0
  · rw [if_pos h0]
    have : hessianUpdate d H s y = none := by unfold hessianUpdate; dsimp only; rw [if_pos h0]
    rw [this]
    exact ⟨rfl, fun _ h => by simp at h⟩
  rw [if_neg h0]
  rcases hb : bfgsPair d (mulVec d H s) s y with _ | ⟨r, sr⟩
  · have : hessianUpdate d H s y = none := by unfold hessianUpdate; dsimp only; rw [if_neg h0, hb]; rfl
    rw [this]
    exact ⟨rfl, fun _ h => by simp at h⟩
  by_cases hsr : sr = 0
  · have : hessianUpdate d H s y = none := by unfold hessianUpdate; dsimp only; rw [if_neg h0, hb]; exact if_pos hsr
    rw [this]
    exact ⟨(if_pos hsr).symm, fun _ h => by simp at h⟩
  obtain ⟨H', e, h'⟩ := hessianUpdate_form d hH s y h0 hb hsr
  rw [e]
  refine ⟨?_, fun H2 h2 => Option.some.inj h2 ▸ ⟨_, h'⟩⟩
  show some _ = if sr = 0 then none else _
  rw [if_neg hsr]
  congr 1
  funext i j
  show H'.coeff i j = if Linked d i j then _ else _
  rw [h'.holds.coeff_eq j.2]
  by_cases hl : Linked d i j
  · rw [if_pos hl, if_pos ((hesPat_linked d i.2 j.2).2 hl)]
    show M i j + bfgsTerm d _ _ _ _ i j = H.coeff i j - _ + _
    rw [hH.holds.coeff_eq j.2, if_pos ((hesPat_linked d i.2 j.2).2 hl)]
    unfold bfgsTerm fin
    ring
  · rw [if_neg hl, if_neg fun h => hl ((hesPat_linked d i.2 j.2).1 h)]

variable {q : QpConf d}

/-- The dense solver to compare with: same problem, settings, bounds and line search, the masked Hessian update and a dense regularisation. -/
noncomputable def denseEnv (c : Conf d) (q : QpConf d) (reg : Matrix (Fin d.VAR) (Fin d.VAR) ℝ → Matrix (Fin d.VAR) (Fin d.VAR) ℝ) (o : Obj d ℝ) :
    Sqp.Env ℝ d.VAR d.NEQ d.NINEQ (Sqp.identityPrecond ℝ d.VAR (d.NEQ + d.NINEQ)) q.qps :=
  { c.values q o with hessUpdate := blockBfgs d, regularise := reg }

/-- The sparse regularisation does on every matrix with the pattern of the Hessian what the dense one does. -/
def RegFits (regS : Csc ℝ → Option (Csc ℝ)) (reg : Matrix (Fin d.VAR) (Fin d.VAR) ℝ → Matrix (Fin d.VAR) (Fin d.VAR) ℝ) : Prop :=
  ∀ H M, HesForm d H M → ∃ H' M', regS H = some H' ∧ HesForm d H' M' ∧ hesMat d H' = reg (hesMat d H)

/-- The conditions on dimensions and approximation under which the sparse derivatives are right from the first call on. -/
structure Regular (d : Dims) (A : Approx ℝ) : Prop where
  X : 0 < d.NX
  S : 1 ≤ d.S
  N : 1 ≤ d.N
  skew : SkewEnds d A
  off : OffDiag d A
  P : d.NP = 0
  U : d.NU ≤ d.NX
  VX : d.NX ≤ d.VARU ∨ d.NU = 0
  G : d.NG = 0 ∨ d.NG = d.NX

theorem Regular.VX' {A : Approx ℝ} (h : Regular d A) : d.NX ≤ d.VARU + d.NP ∨ d.NU = 0 := by
  rcases h.VX with h | h
  · left; omega
  · exact Or.inr h

/-- Two objects with the same horizon and node times. -/
def SameTimes (o o' : Obj d ℝ) : Prop := o.tStart = o'.tStart ∧ o.tStop = o'.tStop ∧ o.time = o'.time

theorem SameTimes.symm {o o' : Obj d ℝ} (h : SameTimes o o') : SameTimes o' o := ⟨h.1.symm, h.2.1.symm, h.2.2.symm⟩
theorem SameTimes.trans {o o' o'' : Obj d ℝ} (h : SameTimes o o') (h' : SameTimes o' o'') : SameTimes o o'' :=
  ⟨h.1.trans h'.1, h.2.1.trans h'.2.1, h.2.2.trans h'.2.2⟩

/-- Invariant of the object between calls. -/
structure Ok (A : Approx ℝ) (st : State q) : Prop where
  jac : Reach d A st.jac
  hes : HesInv d st.H
  clean : Clean (K := ℝ) q.both (BoxAdmm.State.kkt st.s.qpMem)
  reuse : st.reuse = true → BoxBuilt (K := ℝ) q.both (hesPat d) (conPat d) ⟨st.s.qpMem, st.mK⟩

/-- The QP has been set up. -/
structure Lin (st : State q) : Prop where
  hes : ∃ M, HesForm d st.H M
  con : ∃ M, ConForm d M st.jac.J
  H : st.s.qp.H = hesMat d st.H
  A : st.s.qp.A = jacMat d st.jac.J

theorem Lin.toQP {st : State q} (h : Lin st) : (sparseQP st).toQP = st.s.qp := by
  have h1 := h.H
  have h2 := h.A
  revert h1 h2
  unfold sparseQP SparseQP.toQP
  generalize st.s.qp = p
  cases p
  rintro rfl rfl
  rfl

theorem hesPat_diag {c : ℕ} (hc : c < d.VAR) : hesPat d c c = true := (hesPat_linked d hc hc).2 (Or.inr (Or.inr rfl))

/-- One QP. -/
theorem qp_match {A : Approx ℝ} (hb : q.both = false) {st : State q} (h : Ok A st) (hl : Lin st) :
    (boxSolve st.reuse q.both q.lin q.sq q.cfg (sparseQP st) 0 0 ⟨st.s.qpMem, st.mK⟩).map BoxObj.st
      = BoxAdmm.solve q.both q.lin q.sq q.cfg st.s.qp 0 0 st.s.qpMem ∧
    ∀ b, boxSolve st.reuse q.both q.lin q.sq q.cfg (sparseQP st) 0 0 ⟨st.s.qpMem, st.mK⟩ = some b → BoxBuilt q.both (hesPat d) (conPat d) b := by
  obtain ⟨M, hM⟩ := hl.hes
  obtain ⟨C, hC⟩ := hl.con
  have hf : BoxFits st.reuse q.both (hesPat d) (conPat d) (sparseQP st) ⟨st.s.qpMem, st.mK⟩ :=
    ⟨⟨M, hM.holds⟩, ⟨C, hC.holds⟩, fun hr => ⟨hb, h.reuse hr, fun c hc => hesPat_diag hc⟩, h.clean⟩
  have := boxSolve_match (lin := q.lin) (sq := q.sq) (cfg := q.cfg) (xg := 0) (yg := 0) hf
  rw [hl.toQP] at this
  exact this

variable {c : Conf d} {f g : ℕ → ℕ → (Fin d.M → ℝ) → ℝ} {L : ℕ → (Fin d.M → ℝ) → ℝ} {m : (Fin d.M → ℝ) → ℝ}

theorem problem_same (hR : Regular d c.A) {o o' : Obj d ℝ} (ht : SameTimes o o') (h : Exact c.cb o.time f g L m) : problem c.A c.cb o c.sc = problem c.A c.cb o' c.sc :=
  problem_any hR.S hR.N hR.skew hR.U hR.VX' h ht.1 ht.2.1 ht.2.2

theorem values_same (hR : Regular d c.A) {o o' : Obj d ℝ} (ht : SameTimes o o') (h : Exact c.cb o.time f g L m) : c.values q o = c.values q o' := by
  unfold Conf.values
  rw [problem_same hR ht h]

/-- The step with the identity preconditioner, in terms of what the QP solver returns. -/
theorem qpStep_identity {n me mi : ℕ} {qps : Sqp.QPSolver ℝ n (me + mi)} (env : Sqp.Env ℝ n me mi (Sqp.identityPrecond ℝ n (me + mi)) qps)
    (st : Sqp.State ℝ n me mi (Sqp.identityPrecond ℝ n (me + mi)) qps) {r : qps.Mem × (Fin n → ℝ) × (Fin (me + mi) ⊕ Fin n → ℝ) × ℤ}
    (e : qps.solve st.qpMem st.qp = r) : Sqp.qpStep env st = some { st with
      qpMem := r.1
      lamK := r.2.2.1
      cost := (env.stepSize st.qp.h r.2.2.1 st.x r.2.1 st.cost).2
      qpIter := st.qpIter + r.2.2.2
      x := fun i => st.x i + (env.stepSize st.qp.h r.2.2.1 st.x r.2.1 st.cost).1 * r.2.1 i
      lam := fun i => st.lam i + (env.stepSize st.qp.h r.2.2.1 st.x r.2.1 st.cost).1 * (r.2.2.1 - st.lam) i
      stepPrev := fun i => (env.stepSize st.qp.h r.2.2.1 st.x r.2.1 st.cost).1 * r.2.1 i
      primalNorm := (env.stepSize st.qp.h r.2.2.1 st.x r.2.1 st.cost).1 * infNorm r.2.1
      dualNorm := (env.stepSize st.qp.h r.2.2.1 st.x r.2.1 st.cost).1 * infNorm (r.2.2.1 - st.lam) } := by
  subst e
  rfl

/-- The step after the QP. -/
theorem qpStep_match (hR : Regular d c.A) (hb : q.both = false) (hI : q.cfg.adaptiveRho = true → q.cfg.adaptiveRhoInterval ≠ 0)
    {reg : Matrix (Fin d.VAR) (Fin d.VAR) ℝ → Matrix (Fin d.VAR) (Fin d.VAR) ℝ} {o0 : Obj d ℝ} (hx : Exact c.cb o0.time f g L m) {st : State q} (ht : SameTimes o0 st.o)
    (h : Ok c.A st) (hl : Lin st) :
    ∃ st', qpStep c st = some st' ∧ Sqp.qpStep (denseEnv c q reg o0) st.s = some st'.s ∧ Ok c.A st' ∧ Lin st' ∧ SameTimes o0 st'.o ∧
      BoxBuilt (K := ℝ) q.both (hesPat d) (conPat d) ⟨st'.s.qpMem, st'.mK⟩ := by
  obtain ⟨h1, h2⟩ := qp_match hb h hl
  obtain ⟨r, hr⟩ := BoxAdmm.solve_total (both := q.both) (lin := q.lin) (sq := q.sq) (qp := st.s.qp) hI 0 0 st.s.qpMem
  rw [hr, Option.map_eq_some_iff] at h1
  obtain ⟨b, eb, rfl⟩ := h1
  have hB := h2 b eb
  have hqs : q.qps.solve st.s.qpMem st.s.qp = (b.st, b.st.x, b.st.y, b.st.info.iter) := by
    exact boxQps_solve hr
  unfold qpStep
  rw [eb]
  refine ⟨_, rfl, ?_, ⟨h.jac, h.hes, hB.clean, fun _ => hB⟩, ⟨hl.hes, hl.con, hl.H, hl.A⟩, ht, hB⟩
  have hv : c.values q st.o = c.values q o0 := (values_same hR ht hx).symm
  rw [qpStep_identity (denseEnv c q reg o0) st.s hqs, hv]
  rfl

/-! ### Linearisation -/

/-- The outputs of the first linearisation. -/
theorem lagHes_match (hR : Regular d c.A) {st : State q} (hx : Exact c.cb st.o.time f g L m) (hj : Reach d c.A st.jac) (hH : HesInv d st.H) :
    ∃ lg H' cg k m' o', lagHesOutputs c st = some (lg, H', cg, k, m', o') ∧ SameTimes st.o o' ∧ Reach d c.A m' ∧ (∃ M, ConForm d M m'.J) ∧ (∃ M, HesForm d H' M) ∧
      (∀ i : Fin d.VAR, lg i = (problem c.A c.cb st.o c.sc).lagGrad st.s.x st.s.lam i) ∧
      hesMat d H' = (problem c.A c.cb st.o c.sc).lagHess st.s.x st.s.lam ∧
      (∀ i : Fin d.VAR, cg i = (problem c.A c.cb st.o c.sc).costGrad st.s.x i) ∧
      (∀ i : Fin (d.NEQ + d.NINEQ), k i = (problem c.A c.cb st.o c.sc).constr st.s.x i) ∧ jacMat d m'.J = (problem c.A c.cb st.o c.sc).jac st.s.x := by
  have hf : ∀ k < d.NN, DynExact c.cb (st.o.time k) (f k) (node d (Spec.ext st.s.x) k) := fun k hk => hx.dyn k hk _
  have hg : ∀ k < d.NN, IneqExact c.cb (st.o.time k) (g k) (node d (Spec.ext st.s.x) k) := fun k hk => hx.ineq k hk _
  have hw : Writes d c.cb st.o (Spec.ext st.s.x) := writes_of_exact d c.cb st.o L st.s.x fun k hk => hx.lag2 k hk _
  obtain ⟨F, hF⟩ := hw
  have hok := guard_ok (d := d) hR.U hR.VX'
  have hJ : JacOk d st.jac := by
    rcases hR.G with h | h
    · exact Or.inl h
    · exact Or.inr (Or.inl h)
  have hP := hR.P
  obtain ⟨J, gc, H1, o1, gd, Hd, M, e1, ed, hgc, -, -, -⟩ := cost_pair d hR.X hR.S hR.N c.A c.cb st.o (Spec.ext st.s.x) hH hok (fun _ => by omega) F hF
  obtain ⟨Jc, qc, Hc, oc, ec, -, -, -, -, hqc, -⟩ := cost_hessian d c.A c.cb st.o L m st.s.x hR.U hR.VX' (fun k hk => hx.lag k hk _) (hx.mayer _)
    (fun k hk => hx.lag2 k hk _) (hx.mayer2 _)
  rw [ed] at ec
  simp only [Option.some.injEq, Prod.mk.injEq] at ec
  obtain ⟨-, rfl, -, -⟩ := ec
  have ho1 := costHesSparse_obj d c.A c.cb st.o (Spec.ext st.s.x) e1
  have ht1 : SameTimes st.o o1 := by rw [ho1]; exact ⟨rfl, rfl, rfl⟩
  obtain ⟨k, m', o2, e2, hk, ho2, hJv, -⟩ := con_pair d c.A hR.X hR.S hR.N hR.skew hR.off c.cb o1 c.sc.junk c.jac0 (Spec.ext st.s.x) (ofDual st.s.lam) c.sc.c0 c.sc.J0 hj hJ
  obtain ⟨k', m'', o2', e2', -, -, hC, -⟩ := step_spec d c.A hR.X hR.S hR.N hR.skew hR.off c.cb o1 c.sc.junk c.jac0 (Spec.ext st.s.x) c.sc.c0 c.sc.J0
    (hj.inv hR.X hR.S hR.N hR.skew hR.off) (Or.inl (by have := hR.G; omega))
  rw [e2] at e2'
  simp only [Option.some.injEq, Prod.mk.injEq] at e2'
  obtain ⟨-, rfl, -⟩ := e2'
  obtain ⟨J3, lg, H', m3, o3, lgd, Hd3, od, e3, ed3, hlg, hHf, hHv⟩ := lag_pair d hR.X hR.S hR.N c.A hR.skew hR.off c.cb st.o c.sc.junk c.jac0 (Spec.ext st.s.x)
    (ofDual st.s.lam) c.sc.c0 c.sc.J0 c.sc.xd0 c.sc.g0 1 hH hj hJ hok (fun _ => by omega) F hF
  obtain ⟨J4, q4, H4, o4, e4, -, hq4, -⟩ := problem_hessian (sc := c.sc) hR.S hR.N hR.skew hR.U hR.VX' hx st.s.x st.s.lam
  rw [ed3] at e4
  simp only [Option.some.injEq, Prod.mk.injEq] at e4
  obtain ⟨-, rfl, -, -⟩ := e4
  -- the two ways of writing the call agree
  have eo : lagHesOutputs c st = some (lg, H', gc, k, m', o2) := by
    have e3' := e3
    unfold lagrangianGradientHessianSparse at e3'
    rw [e1, Option.bind_eq_bind, Option.bind_some, e2, Option.bind_eq_bind, Option.bind_some, if_pos rfl, Option.bind_eq_bind, Option.bind_eq_some_iff] at e3'
    obtain ⟨H5, e5, e6⟩ := e3'
    simp only [Option.some.injEq, Prod.mk.injEq] at e6
    obtain ⟨-, e7, rfl, -, -⟩ := e6
    unfold lagHesOutputs
    rw [e1, Option.bind_some, e2, Option.bind_some, e5]
    show some _ = some _
    rw [← e7]
  have hparts := problem_parts (sc := c.sc) hR.S hR.N hR.skew hx st.s.x
  have hjac := fun i (hi : i < d.NEQ + d.NINEQ) => jacobian d c.A c.cb o1 c.sc.junk c.sc.c0 c.sc.J0 f g st.s.x hR.S hR.N hR.skew (ht1.2.2 ▸ hf) (ht1.2.2 ▸ hg) hi
  have hcon : ∀ z : Fin d.VAR → ℝ, constraints d c.A c.cb o1 c.sc.junk (Spec.ext z) c.sc.c0 = constraints d c.A c.cb st.o c.sc.junk (Spec.ext z) c.sc.c0 := by
    intro z
    unfold constraints inequalities
    dsimp only
    rw [equalities_congr c.A c.cb ht1.1 ht1.2.1 ht1.2.2, ← ht1.2.2]
  refine ⟨lg, H', gc, k, m', o2, eo, ht1.trans (SameTimes.symm ho2), Reach.step c.cb o1 o2 c.sc.junk c.jac0 (Spec.ext st.s.x) c.sc.c0 k hj e2, hC, hHf,
    fun i => (hlg i i.2).trans (hq4 i), ?_, ?_, ?_, ?_⟩
  · funext r i
    show H'.coeff r i = ((lagrangianGradientHessian d c.A c.cb st.o c.sc.junk (Spec.ext st.s.x) (ofDual st.s.lam) c.sc.c0 c.sc.J0 c.sc.xd0 c.sc.g0 1).map
      fun t => t.2.2.1 r i).getD 0
    rw [ed3, hHv r r.2 i i.2, costErr_zero d c.A st.o _ (Or.inl hP), mul_zero, ite_self, add_zero]
    unfold mayerErr
    rw [if_neg (by unfold Dims.VAR; omega), mul_zero, sub_zero]
    rfl
  · intro i
    rw [hgc i i.2]
    exact congrFun (AD.gradient_unique hqc hparts.1) i
  · intro i
    rw [hk, (hjac i i.2).1, (hparts.2.2 i).1, hcon]
  · funext r
    have h1 := (hjac r r.2).2
    simp only [hcon] at h1
    have h2 := AD.gradient_unique h1 (hparts.2.2 r).2
    funext i
    show m'.J.coeff r i = _
    rw [hJv r r.2 i i.2]
    exact congrFun h2 i

theorem linearise_match (hR : Regular d c.A) {reg : Matrix (Fin d.VAR) (Fin d.VAR) ℝ → Matrix (Fin d.VAR) (Fin d.VAR) ℝ} (hreg : RegFits c.regS reg)
    {o0 : Obj d ℝ} (hx : Exact c.cb o0.time f g L m) {st : State q} (ht : SameTimes o0 st.o) (h : Ok c.A st) :
    ∃ st', linearise c st = some st' ∧ st'.s = Sqp.linearise (denseEnv c q reg o0) st.s ∧ Ok c.A st' ∧ Lin st' ∧ SameTimes o0 st'.o := by
  have hx' : Exact c.cb st.o.time f g L m := ht.2.2 ▸ hx
  obtain ⟨lg, H', cg, k, m', o', e, ht', hj', hC, ⟨M, hM⟩, e1, e2, e3, e4, e5⟩ := lagHes_match hR hx' h.jac h.hes
  obtain ⟨H2, M2, er, hM2, hr2⟩ := hreg H' M hM
  unfold linearise
  rw [e, Option.bind_some, er]
  refine ⟨_, rfl, ?_, ⟨hj', Or.inr ⟨M2, hM2⟩, h.clean, h.reuse⟩, ⟨⟨M2, hM2⟩, hC, rfl, rfl⟩, ht.trans ht'⟩
  have hp := problem_same hR ht hx
  unfold Sqp.linearise
  have a1 : (fun i : Fin d.VAR => lg i) = (problem c.A c.cb o0 c.sc).lagGrad st.s.x st.s.lam := by rw [hp]; exact funext e1
  have a2 : (fun i : Fin d.VAR => cg i) = (problem c.A c.cb o0 c.sc).costGrad st.s.x := by rw [hp]; exact funext e3
  have a3 : (fun i : Fin (d.NEQ + d.NINEQ) => k i) = (problem c.A c.cb o0 c.sc).constr st.s.x := by rw [hp]; exact funext e4
  dsimp only
  rw [a1, a2, a3, hr2, e2, e5, ← hp]
  rfl

theorem update_match (hR : Regular d c.A) {reg : Matrix (Fin d.VAR) (Fin d.VAR) ℝ → Matrix (Fin d.VAR) (Fin d.VAR) ℝ}
    {o0 : Obj d ℝ} (hx : Exact c.cb o0.time f g L m) {st : State q} (ht : SameTimes o0 st.o) (h : Ok c.A st) (hl : Lin st) :
    (updateLinearisation c st).map State.s = Sqp.updateLinearisation (denseEnv c q reg o0) st.s ∧
    ∀ st', updateLinearisation c st = some st' → Ok c.A st' ∧ Lin st' ∧ SameTimes o0 st'.o ∧ st'.reuse = st.reuse := by
  have hJ : JacOk d st.jac := by
    rcases hR.G with h | h
    · exact Or.inl h
    · exact Or.inr (Or.inl h)
  have hp := problem_same hR ht hx
  obtain ⟨k, m', o', e2, hk, ho2, hJv, -⟩ := con_pair d c.A hR.X hR.S hR.N hR.skew hR.off c.cb (costGradient d c.A c.cb st.o (Spec.ext st.s.x)).2.2 c.sc.junk c.jac0
    (Spec.ext st.s.x) (ofDual st.s.lam) c.sc.c0 c.sc.J0 h.jac hJ
  obtain ⟨k', m'', o2', e2', -, -, hC, -⟩ := step_spec d c.A hR.X hR.S hR.N hR.skew hR.off c.cb (costGradient d c.A c.cb st.o (Spec.ext st.s.x)).2.2 c.sc.junk c.jac0
    (Spec.ext st.s.x) c.sc.c0 c.sc.J0 (h.jac.inv hR.X hR.S hR.N hR.skew hR.off) (Or.inl (by have := hR.G; omega))
  rw [e2] at e2'
  simp only [Option.some.injEq, Prod.mk.injEq] at e2'
  obtain ⟨-, rfl, -⟩ := e2'
  obtain ⟨J, lg, cg, k1, m1, o1, e1, -, hlg, hcg, hk1, -⟩ := sparse_lagrangian_gradient d c.A hR.X hR.S hR.N hR.skew hR.off c.cb st.o c.sc.junk c.jac0 (Spec.ext st.s.x)
    (ofDual st.s.lam) c.sc.c0 c.sc.J0 h.jac hJ
  have e1' := e1
  unfold lagrangianGradientSparse at e1'
  dsimp only at e1'
  rw [e2, Option.bind_eq_bind, Option.bind_some] at e1'
  simp only [Option.some.injEq, Prod.mk.injEq] at e1'
  obtain ⟨-, -, hcg', rfl, rfl, rfl⟩ := e1'
  have ht' : SameTimes o0 o' := ht.trans (SameTimes.symm (SameTimes.trans ho2 ⟨rfl, rfl, rfl⟩))
  obtain ⟨M, hM⟩ := hl.hes
  obtain ⟨u1, u2⟩ := hessianUpdate_dense hM (Spec.ext st.s.stepPrev) fun i => lg i - Spec.ext st.s.lagGradient i
  have a1 : (fun i : Fin d.VAR => lg i) = (problem c.A c.cb o0 c.sc).lagGrad st.s.x st.s.lam := by rw [hp]; exact funext fun i => hlg i i.2
  have a2 : (fun i : Fin d.VAR => cg i) = (problem c.A c.cb o0 c.sc).costGrad st.s.x := by rw [hp, hcg]; rfl
  have a3 : (fun i : Fin (d.NEQ + d.NINEQ) => k i) = (problem c.A c.cb o0 c.sc).constr st.s.x := by rw [hp, hk]; rfl
  have a4 : jacMat d m'.J = (problem c.A c.cb o0 c.sc).jac st.s.x := by
    rw [hp]
    funext r i
    exact hJv r r.2 i i.2
  have a5 : fin d (fun i => lg i - Spec.ext st.s.lagGradient i) = (problem c.A c.cb o0 c.sc).lagGrad st.s.x st.s.lam - st.s.lagGradient := by
    rw [← a1]
    funext i
    show lg i - fin d (Spec.ext st.s.lagGradient) i = _
    rw [ext_fin]
    rfl
  rw [ext_fin, a5, ← hl.H] at u1
  unfold updateLinearisation
  rw [e1, Option.bind_some]
  constructor
  · unfold Sqp.updateLinearisation
    show Option.map _ (Option.map _ _) = Option.map _ (blockBfgs d st.s.qp.H st.s.stepPrev ((problem c.A c.cb o0 c.sc).lagGrad st.s.x st.s.lam - st.s.lagGradient))
    rw [← u1, Option.map_map, Option.map_map]
    congr 1
    funext H
    show ({ st.s with lagGradient := fun i : Fin d.VAR => lg i, qp := Sqp.formQP c.bd st.s.x (hesMat d H) (fun i : Fin d.VAR => cg i) (jacMat d m'.J) (fun i : Fin (d.NEQ + d.NINEQ) => k i) } : q.Base) = _
    rw [a1, a2, a3, a4]
    rfl
  · intro st' e
    rw [Option.map_eq_some_iff] at e
    obtain ⟨H, eH, rfl⟩ := e
    obtain ⟨M', hM'⟩ := u2 H eH
    exact ⟨⟨Reach.step c.cb _ o' c.sc.junk c.jac0 (Spec.ext st.s.x) c.sc.c0 k h.jac e2, Or.inr ⟨M', hM'⟩, h.clean, h.reuse⟩, ⟨⟨M', hM'⟩, hC, rfl, rfl⟩, ht', rfl⟩

end PolyMPC.SqpSparse
