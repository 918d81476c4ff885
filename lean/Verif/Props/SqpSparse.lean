import Verif.Lemmas.SqpSparse

/-!
# The SQP solver with sparse matrices computes what the dense one computes (C179)

The sparse derivatives, the sparse Hessian update and the sparse QP solver with `reuse_pattern` together: any sequence of solves on one solver object, with guesses,
bounds, parameters, settings and horizons that change between the solves, runs through the same states as the dense solver with the damped BFGS
update restricted to the variables of the same node.
-/

namespace PolyMPC.SqpSparse
open Ocp MpcSqp Sparse Sparse.Csc Spec AdmmSparse Matrix QuasiNewton

set_option linter.unusedSectionVars false

variable {d : Dims} {q : QpConf d} {c : Conf d} {f g : ℕ → ℕ → (Fin d.M → ℝ) → ℝ} {L : ℕ → (Fin d.M → ℝ) → ℝ} {m : (Fin d.M → ℝ) → ℝ}
  {reg : Matrix (Fin d.VAR) (Fin d.VAR) ℝ → Matrix (Fin d.VAR) (Fin d.VAR) ℝ}

/-- A change of members outside the matrices. -/
theorem Ok.of {A : Approx ℝ} {st : State q} (h : Ok A st) {s : q.Base} (hs : s.qpMem = st.s.qpMem) : Ok A { st with s := s } :=
  ⟨h.jac, h.hes, by rw [hs]; exact h.clean, fun hr => by rw [hs]; exact h.reuse hr⟩

theorem Lin.of {st : State q} (h : Lin st) {s : q.Base} (hs : s.qp = st.s.qp) : Lin { st with s := s } :=
  ⟨h.hes, h.con, by rw [hs]; exact h.H, by rw [hs]; exact h.A⟩

section
variable [NeZero d.VAR]

theorem measure_dense (o : Obj d ℝ) (s : q.Base) : Sqp.measure (denseEnv c q reg o) s = Sqp.measure (c.values q o) s := rfl
theorem terminated_dense (o : Obj d ℝ) (s : q.Base) : Sqp.terminated (denseEnv c q reg o) s = Sqp.terminated (c.values q o) s := rfl
theorem callback_dense (o : Obj d ℝ) (s : q.Base) : Sqp.callback (denseEnv c q reg o) s = Sqp.callback (c.values q o) s := rfl

theorem callback_mem (env : Sqp.Env ℝ d.VAR d.NEQ d.NINEQ (Sqp.identityPrecond ℝ d.VAR (d.NEQ + d.NINEQ)) q.qps) (s : q.Base) :
    (Sqp.callback env s).qpMem = s.qpMem ∧ (Sqp.callback env s).qp = s.qp := by
  unfold Sqp.callback
  split_ifs <;> exact ⟨rfl, rfl⟩

theorem loop_match (hR : Regular d c.A) (hb : q.both = false) (hI : q.cfg.adaptiveRho = true → q.cfg.adaptiveRhoInterval ≠ 0) {o0 : Obj d ℝ}
    (hx : Exact c.cb o0.time f g L m) (n : ℕ) : ∀ (st : State q), SameTimes o0 st.o → Ok c.A st → Lin st →
    (loop c n st).map State.s = Sqp.loop (denseEnv c q reg o0) n st.s ∧ ∀ st', loop c n st = some st' → Ok c.A st' ∧ SameTimes o0 st'.o := by
  induction n with
  | zero =>
    intro st ht h hl
    exact ⟨rfl, fun st' e => by rw [← Option.some.inj e]; exact ⟨h, ht⟩⟩
  | succ n ih =>
    intro st ht h hl
    unfold loop Sqp.loop
    by_cases hi : st.s.iter < c.cfg.maxIter
    · have hi' : st.s.iter < (denseEnv c q reg o0).cfg.maxIter := hi
      rw [if_pos hi, if_pos hi']
      have h0 : Ok c.A ({ st with s := { st.s with iter := st.s.iter + 1 } } : State q) := h.of rfl
      have hl0 : Lin ({ st with s := { st.s with iter := st.s.iter + 1 } } : State q) := hl.of rfl
      obtain ⟨u1, u2⟩ := update_match (reg := reg) hR hx (st := { st with s := { st.s with iter := st.s.iter + 1 } }) ht h0 hl0
      rw [← u1]
      rcases e1 : updateLinearisation c ({ st with s := { st.s with iter := st.s.iter + 1 } } : State q) with _ | st1
      · exact ⟨rfl, fun st' e => by simp at e⟩
      obtain ⟨h1, hl1, ht1, -⟩ := u2 st1 e1
      obtain ⟨st2, e2, ed2, h2, hl2, ht2, -⟩ := qpStep_match (reg := reg) hR hb hI hx ht1 h1 hl1
      have hv : c.values q st2.o = c.values q o0 := (values_same hR ht2 hx).symm
      rw [Option.bind_some, Option.map_some, Option.bind_some, e2, Option.bind_some, ed2, Option.bind_some]
      dsimp only
      rw [hv, callback_dense, measure_dense, terminated_dense]
      set s3 := Sqp.measure (c.values q o0) (Sqp.callback (c.values q o0) st2.s) with hs3
      have m3 : s3.qpMem = st2.s.qpMem := (callback_mem (c.values q o0) st2.s).1
      have p3 : s3.qp = st2.s.qp := (callback_mem (c.values q o0) st2.s).2
      by_cases hT : Sqp.terminated (c.values q o0) s3 = true
      · rw [if_pos hT, if_pos hT]
        refine ⟨rfl, fun st' e => ?_⟩
        rw [← Option.some.inj e]
        exact ⟨h2.of m3, ht2⟩
      · rw [if_neg hT, if_neg hT]
        exact ih _ ht2 (h2.of m3) (hl2.of p3)
    · have hi' : ¬ st.s.iter < (denseEnv c q reg o0).cfg.maxIter := hi
      rw [if_neg hi, if_neg hi']
      exact ⟨rfl, fun st' e => by rw [← Option.some.inj e]; exact ⟨h, ht⟩⟩

/-- One solve. -/
theorem solve_match (hR : Regular d c.A) (hreg : RegFits c.regS reg) (hb : q.both = false) (hI : q.cfg.adaptiveRho = true → q.cfg.adaptiveRhoInterval ≠ 0)
    {o0 : Obj d ℝ} (hx : Exact c.cb o0.time f g L m) {st : State q} (ht : SameTimes o0 st.o) (h : Ok c.A st) :
    (solve c st).map State.s = Sqp.solve (denseEnv c q reg o0) st.s ∧ ∀ st', solve c st = some st' → Ok c.A st' ∧ SameTimes o0 st'.o := by
  obtain ⟨st0, e0, s0, h0, hl0, ht0⟩ := linearise_match hR hreg hx (st := { st with s := { st.s with status := .MAX_ITER_EXCEEDED, qpIter := 0, iter := 1 } }) ht (h.of rfl)
  obtain ⟨st1, e1, ed1, h1, hl1, ht1, hB⟩ := qpStep_match (reg := reg) hR hb hI hx ht0 h0 hl0
  rw [s0] at ed1
  have hv : c.values q st1.o = c.values q o0 := (values_same hR ht1 hx).symm
  unfold solve Sqp.solve
  rw [e0, Option.bind_some, e1, Option.bind_some]
  dsimp only
  rw [ed1, Option.bind_some]
  rw [hv, measure_dense, terminated_dense]
  have hOk : Ok c.A ({ st1 with reuse := true } : State q) := ⟨h1.jac, h1.hes, h1.clean, fun _ => hB⟩
  have hLin : Lin ({ st1 with reuse := true } : State q) := ⟨hl1.hes, hl1.con, hl1.H, hl1.A⟩
  set s2 := Sqp.measure (c.values q o0) st1.s with hs2
  have m2 : s2.qpMem = st1.s.qpMem := rfl
  have p2 : s2.qp = st1.s.qp := rfl
  by_cases hT : Sqp.terminated (c.values q o0) s2 = true
  · rw [if_pos hT, if_pos hT]
    refine ⟨rfl, fun st' e => ?_⟩
    rw [← Option.some.inj e]
    exact ⟨hOk.of m2, ht1⟩
  · rw [if_neg hT, if_neg hT]
    exact loop_match hR hb hI hx _ _ ht1 (hOk.of m2) (hLin.of p2)

end

/-! ### Sequences of solves -/

/-- One solve on an existing object: what the problem, the bounds and the settings are by then, the horizon, the guesses. -/
structure Call (d : Dims) where
  c : Conf d
  tStart : ℝ
  tStop : ℝ
  time : ℕ → ℝ
  xg : Fin d.VAR → ℝ
  lg : Sqp.Dual ℝ d.VAR d.NEQ d.NINEQ

/-- The object with the horizon of the call. -/
def Call.obj (k : Call d) (o : Obj d ℝ) : Obj d ℝ := { o with tStart := k.tStart, tStop := k.tStop, time := k.time }

variable [NeZero d.VAR]

/-- The solves on one object of the sparse solver. -/
noncomputable def sparseRun (l : List (Call d)) (st : State q) : Option (State q) := l.foldlM (fun st k => solveFrom k.c { st with o := k.obj st.o } k.xg k.lg) st

/-- The solves on one object of the dense solver; `o` has the AD variables, which do not matter (`MpcSqp.problem_any`). -/
noncomputable def denseRun (reg : Matrix (Fin d.VAR) (Fin d.VAR) ℝ → Matrix (Fin d.VAR) (Fin d.VAR) ℝ) (o : Obj d ℝ) (l : List (Call d)) (s : q.Base) : Option q.Base :=
  l.foldlM (fun s k => Sqp.solveFrom (denseEnv k.c q reg (k.obj o)) s k.xg k.lg) s

/-- A sparse solver object after construction: no matrix has entries, the pattern is not reused, and the model of the dense KKT matrix is zero. -/
structure Fresh (st : State q) : Prop where
  Je : Empty st.jac.Je
  Ji : Empty st.jac.Ji
  J : Empty st.jac.J
  H : Empty st.H
  kkt : BoxAdmm.State.kkt st.s.qpMem = 0
  reuse : st.reuse = false

/-- The conditions on one call. -/
structure Call.Good (A : Approx ℝ) (reg : Matrix (Fin d.VAR) (Fin d.VAR) ℝ → Matrix (Fin d.VAR) (Fin d.VAR) ℝ) (k : Call d) : Prop where
  A : k.c.A = A
  reg : RegFits k.c.regS reg
  exact : ∃ f g L m, Exact k.c.cb k.time f g L m

theorem run_match {A : Approx ℝ} (hR : Regular d A) (hb : q.both = false) (hI : q.cfg.adaptiveRho = true → q.cfg.adaptiveRhoInterval ≠ 0) (o : Obj d ℝ) (l : List (Call d))
    (hl : ∀ k ∈ l, k.Good A reg) : ∀ (st : State q), Ok A st → (sparseRun l st).map State.s = denseRun reg o l st.s ∧ ∀ st', sparseRun l st = some st' → Ok A st' := by
  induction l with
  | nil => exact fun st h => ⟨rfl, fun st' e => by rw [← Option.some.inj e]; exact h⟩
  | cons k l ih =>
    intro st h
    obtain ⟨hA, hreg, f, g, L, m, hx⟩ := hl k (List.mem_cons_self ..)
    subst hA
    have hOk : Ok k.c.A ({ st with o := k.obj st.o, s := { st.s with x := k.xg, lam := k.lg } } : State q) := ⟨h.jac, h.hes, h.clean, h.reuse⟩
    obtain ⟨e1, e2⟩ := solve_match (o0 := k.obj o) hR hreg hb hI hx (st := { st with o := k.obj st.o, s := { st.s with x := k.xg, lam := k.lg } }) ⟨rfl, rfl, rfl⟩ hOk
    unfold sparseRun denseRun
    rw [List.foldlM_cons, List.foldlM_cons]
    have e3 : Sqp.solveFrom (denseEnv k.c q reg (k.obj o)) st.s k.xg k.lg = (solveFrom k.c ({ st with o := k.obj st.o } : State q) k.xg k.lg).map State.s := e1.symm
    rw [e3]
    rcases e4 : solveFrom k.c ({ st with o := k.obj st.o } : State q) k.xg k.lg with _ | st1
    · exact ⟨rfl, fun st' e => by simp at e⟩
    · exact ih (fun k' hk' => hl k' (List.mem_cons_of_mem _ hk')) st1 (e2 st1 e4).1

/-- **C179.** Without parameters and with as many path constraints as states, or none, any sequence of solves on one sparse solver object gives the states (point,
multipliers, status, iteration counts, norms, QP) that the dense solver goes through, and fails exactly when the dense one does. The dense solver uses the
damped BFGS update restricted to the variables of the same node, and the same regularisation. Bounds, callbacks, settings, horizon and guesses may
differ from solve to solve. -/
theorem sparse_sqp_eq_dense {A : Approx ℝ} (hR : Regular d A) (hb : q.both = false) (hI : q.cfg.adaptiveRho = true → q.cfg.adaptiveRhoInterval ≠ 0)
    {st : State q} (hF : Fresh st) (l : List (Call d)) (hl : ∀ k ∈ l, k.Good A reg) : (sparseRun l st).map State.s = denseRun reg st.o l st.s :=
  (run_match hR hb hI st.o l hl st ⟨Reach.init hF.Je hF.Ji hF.J, Or.inl hF.H, by
    rw [hF.kkt]
    exact ⟨fun _ => rfl, fun _ _ _ => rfl⟩, fun h => by rw [hF.reuse] at h; simp at h⟩).1

omit [NeZero d.VAR] in
/-- Without regularisation. -/
theorem regFits_none : RegFits (d := d) some id := fun H M h => ⟨H, M, rfl, h, rfl⟩

omit [NeZero d.VAR] in
/-- The conditions on the approximation hold for the Chebyshev approximation of the code. -/
theorem cheb_regular (hX : 0 < d.NX) (hS : 1 ≤ d.S) (hN : 1 ≤ d.N) (hP : d.NP = 0) (hU : d.NU ≤ d.NX) (hVX : d.NX ≤ d.VARU ∨ d.NU = 0) (hG : d.NG = 0 ∨ d.NG = d.NX) :
    Regular d (chebApprox d.N) := ⟨hX, hS, hN, cheb_skew d hN, cheb_offDiag d, hP, hU, hVX, hG⟩

/-- What `SOLVED` means carries over (C24): after any earlier solves, a solve of the sparse solver that reports it has satisfied the constraints of that call up to
the primal tolerance. -/
theorem sparse_solved {A : Approx ℝ} (hR : Regular d A) (hb : q.both = false) (hI : q.cfg.adaptiveRho = true → q.cfg.adaptiveRhoInterval ≠ 0)
    {st st1 st2 : State q} (hF : Fresh st) {l : List (Call d)} {k : Call d} (hl : ∀ k ∈ l, k.Good A reg) (hk : k.Good A reg) (e1 : sparseRun l st = some st1)
    (e2 : solveFrom k.c { st1 with o := k.obj st1.o } k.xg k.lg = some st2) (ht : 0 < k.c.cfg.tau ∧ k.c.cfg.tau ≤ 1) (hs : st2.s.status = .SOLVED) :
    ViolatedByAtMost k.c.cfg.epsPrim ((problem A k.c.cb (k.obj st.o) k.c.sc).eq st2.s.x) ((problem A k.c.cb (k.obj st.o) k.c.sc).ineq st2.s.x) k.c.bd.lbg k.c.bd.ubg
      st2.s.x k.c.bd.lbx k.c.bd.ubx := by
  obtain ⟨rfl, hreg, f, g, L, m, hx⟩ := hk
  have h0 := (run_match hR hb hI st.o l hl st ⟨Reach.init hF.Je hF.Ji hF.J, Or.inl hF.H, by
    rw [hF.kkt]
    exact ⟨fun _ => rfl, fun _ _ _ => rfl⟩, fun h => by rw [hF.reuse] at h; simp at h⟩).2 st1 e1
  have e := (solve_match (o0 := k.obj st.o) hR hreg hb hI hx (st := { st1 with o := k.obj st1.o, s := { st1.s with x := k.xg, lam := k.lg } }) ⟨rfl, rfl, rfl⟩
    ⟨h0.jac, h0.hes, h0.clean, h0.reuse⟩).1
  have e3 : solve k.c ({ st1 with o := k.obj st1.o, s := { st1.s with x := k.xg, lam := k.lg } } : State q) = some st2 := e2
  rw [e3, Option.map_some] at e
  exact (Sqp.solved_spec (fun h l x p c => (Sqp.lineSearch_range (eps := k.c.eps) ht.1 ht.2 _ _ h l x p c).1.le) e.symm hs).2

/-! ### The example of `Props/MpcLinear.lean` with sparse matrices -/

/-- The scratch storage and the settings of the example. -/
noncomputable def lqConf (bd : Sqp.Bounds ℝ lqDims.VAR lqDims.NINEQ) : Conf lqDims where
  A := chebApprox 1
  cb := lqSrc.cbs
  sc := ⟨fun _ _ => 0, fun _ => 0, fun _ _ => 0, fun _ => zero2 _, fun _ => zero2 _⟩
  jac0 _ _ := 0
  bd := bd
  cfg := Sqp.Settings.default
  regS := some
  eps := 1 / 10 ^ 15

/-- A QP solver for the example: any decomposition. -/
noncomputable def lqQp (lin : BoxAdmm.KktMat ℝ lqDims.VAR (lqDims.NEQ + lqDims.NINEQ) → (BoxAdmm.KktIdx lqDims.VAR (lqDims.NEQ + lqDims.NINEQ) → ℝ) →
    (BoxAdmm.KktIdx lqDims.VAR (lqDims.NEQ + lqDims.NINEQ) → ℝ)) : QpConf lqDims := ⟨false, lin, Real.sqrt, QPBase.Settings.default⟩

/-- A matrix without entries. -/
def noEntries : Csc ℝ := ⟨fun _ => 0, fun _ => 0, fun _ => 0, fun _ => 0⟩

/-- The solver object after construction. -/
noncomputable def lqFresh (lin : BoxAdmm.KktMat ℝ lqDims.VAR (lqDims.NEQ + lqDims.NINEQ) → (BoxAdmm.KktIdx lqDims.VAR (lqDims.NEQ + lqDims.NINEQ) → ℝ) →
    (BoxAdmm.KktIdx lqDims.VAR (lqDims.NEQ + lqDims.NINEQ) → ℝ)) : State (lqQp lin) where
  s := ⟨0, 0, 0, ⟨0, 0, 0, 0, 0, 0, 0⟩, 0, 0, 0, .INVALID_SETTINGS, 0, 0, 0, 0, 0, ⟨⟩, BoxAdmm.fresh QPBase.Settings.default (fun _ => 7) (fun _ => 7) 7, []⟩
  H := noEntries
  jac := ⟨noEntries, noEntries, noEntries⟩
  o := lqWrap.ocp
  mK := noEntries
  reuse := false

theorem noEntries_empty : Empty noEntries := ⟨fun _ => rfl, fun _ => rfl⟩

theorem lqFresh_fresh (lin) : Fresh (lqFresh lin) := ⟨noEntries_empty, noEntries_empty, noEntries_empty, noEntries_empty, rfl, rfl⟩

/-- A call with the horizon of the example. -/
noncomputable def lqCall (bd : Sqp.Bounds ℝ lqDims.VAR lqDims.NINEQ) (t : ℝ) (xg : Fin lqDims.VAR → ℝ) (lg : Sqp.Dual ℝ lqDims.VAR lqDims.NEQ lqDims.NINEQ) : Call lqDims :=
  ⟨lqConf bd, 0, t, lqWrap.ocp.time, xg, lg⟩

theorem lqCall_good (bd t xg lg) : (lqCall bd t xg lg).Good (chebApprox 1) id := ⟨rfl, regFits_none, _, _, _, _, lq_exact _⟩

theorem lq_regular : Regular lqDims (chebApprox 1) := cheb_regular (d := lqDims) (by decide) (by decide) (by decide) rfl (by decide) (Or.inl (by decide)) (Or.inl rfl)

example (lin) : (sparseRun [lqCall (bounds lqWrap) 2 0 0, lqCall (bounds lqWrap) 1 (fun _ => 3) 0] (lqFresh lin)).map State.s
    = denseRun (q := lqQp lin) id lqWrap.ocp [lqCall (bounds lqWrap) 2 0 0, lqCall (bounds lqWrap) 1 (fun _ => 3) 0] (lqFresh lin).s :=
  sparse_sqp_eq_dense lq_regular rfl (fun h => by simp [lqQp, QPBase.Settings.default] at h) (lqFresh_fresh lin) _ fun k hk => by
    rcases List.mem_pair.1 hk with rfl | rfl <;> exact lqCall_good _ _ _ _

end PolyMPC.SqpSparse
