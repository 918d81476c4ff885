import Verif.Props.BoxAdmmHistory
import Verif.Props.AdmmHistory
import Verif.Props.SqpTheory
import Verif.Lemmas.SqpSparse
import Verif.Model.SqpBox

/-!
# Property C218: with its own QP solvers, SQP does not depend on earlier solves

C70 assumes that the QP solver's results do not depend on its history. `boxADMM` has this property only for objects that have been used as
the API allows (C217); here C70 is proved for such QP solvers, and instantiated.
-/

set_option linter.unusedSectionVars false

namespace PolyMPC.Sqp
open Matrix PolyMPC.Spec

universe u

variable {K : Type u} [Field K] [LinearOrder K] [IsStrictOrderedRing K] {n me mi : ℕ}
variable {prec : Precond K n (me + mi)} {qps : QPSolver K n (me + mi)}

/-- Neither the preconditioner nor the step size selection nor the QP solver, in states that satisfy `Good`, depends on what happened before. -/
structure HistoryFreeOn (Good : qps.Mem → Prop) (env : Env K n me mi prec qps) : Prop where
  prec : ∀ m m' qp, prec.compute m qp = prec.compute m' qp
  same : ∀ m m' qp, Good m → Good m' → (qps.solve m qp).2 = (qps.solve m' qp).2
  keep : ∀ m qp, Good m → Good (qps.solve m qp).1
  step : ∀ h l x p c c', (env.stepSize h l x p c).1 = (env.stepSize h l x p c').1

/-- The two objects agree, and both QP solvers are in a good state. -/
structure AgreeOn (Good : qps.Mem → Prop) (s s' : State K n me mi prec qps) : Prop where
  agree : Agree s s'
  good : Good s.qpMem
  good' : Good s'.qpMem

variable {Good : qps.Mem → Prop}

theorem qpStep_agreeOn [NeZero n] {env : Env K n me mi prec qps} (hf : HistoryFreeOn Good env) {s s' r : State K n me mi prec qps}
    (hg : Good s.qpMem) (hg' : Good s'.qpMem)
    (hx : s.x = s'.x) (hl : s.lam = s'.lam) (hq : s.qp = s'.qp) (hi : s.iter = s'.iter) (hqi : s.qpIter = s'.qpIter)
    (hst : s.status = s'.status) (hlg : s.lagGradient = s'.lagGradient) (h : qpStep env s = some r) :
    ∃ r', qpStep env s' = some r' ∧ AgreeOn Good (measure env r) (measure env r') := by
  unfold qpStep at h
  rw [Option.map_eq_some_iff] at h
  obtain ⟨⟨mem, scaled⟩, h1, rfl⟩ := h
  have h1' : prec.compute s'.precMem s'.qp = some (mem, scaled) := by rw [← h1, ← hq]; exact hf.prec _ _ _
  have hs := hf.same s.qpMem s'.qpMem scaled hg hg'
  have hk1 := hf.keep s.qpMem scaled hg
  have hk2 := hf.keep s'.qpMem scaled hg'
  refine ⟨_, by unfold qpStep; rw [h1']; rfl, ?_⟩
  refine ⟨?_, hk1, hk2⟩
  have hα := hf.step (prec.unscale mem scaled).h
    (prec.unscalePair mem ((qps.solve s'.qpMem scaled).2.1, (qps.solve s'.qpMem scaled).2.2.1)).2 s'.x
    (prec.unscalePair mem ((qps.solve s'.qpMem scaled).2.1, (qps.solve s'.qpMem scaled).2.2.1)).1 s.cost s'.cost
  constructor <;> simp only [measure, hs, hx, hl, hi, hqi, hst, hlg, hα]

theorem pass_agreeOn [NeZero n] {env : Env K n me mi prec qps} (hf : HistoryFreeOn Good env) {s s' r : State K n me mi prec qps}
    (ha : AgreeOn Good s s') (h : pass env s = some r) : ∃ r', pass env s' = some r' ∧ AgreeOn Good r r' := by
  obtain ⟨s1, s2, h1, h2, rfl⟩ := pass_parts h
  obtain ⟨⟨ax, al, alk, aq, ai, aqi, ast, alg, asp, ap, ad, am⟩, g, g'⟩ := ha
  obtain ⟨H, hH, hs1⟩ := updateLinearisation_spec h1
  simp only at hH
  rw [aq, asp, ax, al, alg] at hH
  have hu : ∃ s1', updateLinearisation env { s' with iter := s'.iter + 1 } = some s1' ∧ s1.x = s1'.x ∧ s1.lam = s1'.lam ∧
      s1.qp = s1'.qp ∧ s1.iter = s1'.iter ∧ s1.qpIter = s1'.qpIter ∧ s1.status = s1'.status ∧
      s1.lagGradient = s1'.lagGradient ∧ s1'.qpMem = s'.qpMem := by
    unfold updateLinearisation
    simp only [hH, Option.map_some]
    refine ⟨_, rfl, ?_⟩
    rw [hs1]
    simp only [ax, al, ai, aqi, ast, and_self]
  obtain ⟨s1', hs1', e1, e2, e3, e4, e5, e6, e7, e8⟩ := hu
  have g1 : Good s1.qpMem := by rw [hs1]; exact g
  obtain ⟨r', hr', hag⟩ := qpStep_agreeOn hf g1 (e8 ▸ g') e1 e2 e3 e4 e5 e6 e7 h2
  refine ⟨measure env (callback env r'), ?_, ?_⟩
  · unfold pass
    rw [hs1', Option.bind_some, hr', Option.map_some]
  · obtain ⟨hag, hg1, hg2⟩ := hag
    unfold callback
    by_cases hcb : env.cfg.callback = true
    · simp only [if_pos hcb]
      exact ⟨⟨hag.x, hag.lam, hag.lamK, hag.qp, hag.iter, hag.qpIter, hag.status, hag.lagGradient, hag.stepPrev,
        hag.primalNorm, hag.dualNorm, hag.maxViolation⟩, hg1, hg2⟩
    · simp only [if_neg hcb]
      exact ⟨hag, hg1, hg2⟩

theorem loop_agreeOn [NeZero n] {env : Env K n me mi prec qps} (hf : HistoryFreeOn Good env) (fuel : ℕ)
    {s s' r : State K n me mi prec qps} (ha : AgreeOn Good s s') (h : loop env fuel s = some r) :
    ∃ r', loop env fuel s' = some r' ∧ AgreeOn Good r r' := by
  induction fuel generalizing s s' with
  | zero =>
    rw [loop] at h
    exact ⟨s', rfl, Option.some.inj h ▸ ha⟩
  | succ k ih =>
    rw [loop_succ] at h ⊢
    rw [← ha.agree.iter]
    by_cases hlt : s.iter < env.cfg.maxIter
    · rw [if_pos hlt, Option.bind_eq_some_iff] at h
      rw [if_pos hlt]
      obtain ⟨t, ht, h2⟩ := h
      obtain ⟨t', ht', hag⟩ := pass_agreeOn hf ha ht
      rw [ht', Option.bind_some, ← terminated_agree hag.agree]
      by_cases hte : terminated env t = true
      · rw [if_pos hte] at h2 ⊢
        refine ⟨_, rfl, ?_⟩
        rw [← Option.some.inj h2]
        exact ⟨{ hag.agree with status := rfl }, hag.good, hag.good'⟩
      · rw [if_neg hte] at h2 ⊢
        exact ih hag h2
    · rw [if_neg hlt] at h ⊢
      exact ⟨s', rfl, Option.some.inj h ▸ ha⟩

/-- C70 for QP solvers that do not depend on their history as long as they are in a good state. -/
theorem solve_history_independent_on [NeZero n] {env : Env K n me mi prec qps} (hf : HistoryFreeOn Good env)
    {st st' r : State K n me mi prec qps} (hg : Good st.qpMem) (hg' : Good st'.qpMem) (hx : st.x = st'.x) (hl : st.lam = st'.lam)
    (h : solve env st = some r) : ∃ r', solve env st' = some r' ∧ AgreeOn Good r r' := by
  rw [solve_eq, Option.bind_eq_some_iff] at h
  obtain ⟨s, hs, h2⟩ := h
  unfold firstPass at hs
  rw [Option.map_eq_some_iff] at hs
  obtain ⟨q, hq, rfl⟩ := hs
  obtain ⟨q', hq', hag⟩ := qpStep_agreeOn hf (s := linearise env (start st)) (s' := linearise env (start st')) (by exact hg) (by exact hg')
    (by exact hx) (by exact hl)
    (by simp only [linearise, start, hx, hl]) rfl rfl rfl (by simp only [linearise, start, hx, hl]) hq
  rw [solve_eq]
  have hf' : firstPass env st' = some (measure env q') := by rw [firstPass, hq']; rfl
  rw [hf', Option.bind_some, ← terminated_agree hag.agree]
  by_cases hte : terminated env (measure env q) = true
  · rw [if_pos hte] at h2 ⊢
    refine ⟨_, rfl, ?_⟩
    rw [← Option.some.inj h2]
    exact ⟨{ hag.agree with status := rfl }, hag.good, hag.good'⟩
  · rw [if_neg hte] at h2 ⊢
    exact loop_agreeOn hf _ hag h2

/-- The calls that can be made on an SQP object: setting the guesses, and `solve` with any problem (of the same sizes), bounds, settings and overrides; `New` describes new
QP solver objects. Everything else in a new object is arbitrary. -/
inductive Used [NeZero n] (New : qps.Mem → Prop) : State K n me mi prec qps → Prop
  | new {st : State K n me mi prec qps} (h : New st.qpMem) : Used New st
  | guess {st : State K n me mi prec qps} (h : Used New st) (x : Fin n → K) (lam : Dual K n me mi) : Used New { st with x := x, lam := lam }
  | call {st st' : State K n me mi prec qps} (h : Used New st) (env : Env K n me mi prec qps) (hs : solve env st = some st') : Used New st'

theorem qpStep_good [NeZero n] (hk : ∀ m qp, Good m → Good (qps.solve m qp).1) {env : Env K n me mi prec qps} {s r : State K n me mi prec qps} (hg : Good s.qpMem)
    (h : qpStep env s = some r) : Good r.qpMem := by
  unfold qpStep at h
  rw [Option.map_eq_some_iff] at h
  obtain ⟨⟨mem, scaled⟩, -, rfl⟩ := h
  exact hk _ _ hg

theorem pass_good [NeZero n] (hk : ∀ m qp, Good m → Good (qps.solve m qp).1) {env : Env K n me mi prec qps} {s r : State K n me mi prec qps} (hg : Good s.qpMem)
    (h : pass env s = some r) : Good r.qpMem := by
  obtain ⟨s1, s2, h1, h2, rfl⟩ := pass_parts h
  obtain ⟨H, hH, hs1⟩ := updateLinearisation_spec h1
  have g2 : Good s2.qpMem := qpStep_good hk (by rw [hs1]; exact hg) h2
  unfold callback
  split_ifs <;> exact g2

theorem loop_good [NeZero n] (hk : ∀ m qp, Good m → Good (qps.solve m qp).1) {env : Env K n me mi prec qps} (fuel : ℕ) {s r : State K n me mi prec qps} (hg : Good s.qpMem)
    (h : loop env fuel s = some r) : Good r.qpMem := by
  induction fuel generalizing s with
  | zero => rw [loop] at h; exact Option.some.inj h ▸ hg
  | succ k ih =>
    rw [loop_succ] at h
    by_cases hlt : s.iter < env.cfg.maxIter
    · rw [if_pos hlt, Option.bind_eq_some_iff] at h
      obtain ⟨t, ht, h2⟩ := h
      have gt := pass_good hk hg ht
      by_cases hte : terminated env t = true
      · rw [if_pos hte] at h2
        rw [← Option.some.inj h2]; exact gt
      · rw [if_neg hte] at h2
        exact ih gt h2
    · rw [if_neg hlt] at h
      exact Option.some.inj h ▸ hg

theorem Used.good [NeZero n] {New : qps.Mem → Prop} (hn : ∀ m, New m → Good m) (hk : ∀ m qp, Good m → Good (qps.solve m qp).1) {st : State K n me mi prec qps}
    (h : Used New st) : Good st.qpMem := by
  induction h with
  | new h => exact hn _ h
  | guess _ _ _ ih => exact ih
  | call _ env hs ih =>
    rw [solve_eq, Option.bind_eq_some_iff] at hs
    obtain ⟨s, hs, h2⟩ := hs
    unfold firstPass at hs
    rw [Option.map_eq_some_iff] at hs
    obtain ⟨q, hq, rfl⟩ := hs
    have gq : Good q.qpMem := qpStep_good hk (by exact ih) hq
    by_cases hte : terminated env (measure env q) = true
    · rw [if_pos hte] at h2
      rw [← Option.some.inj h2]; exact gq
    · rw [if_neg hte] at h2
      exact loop_good hk _ (by exact gq) h2

/-- C70 stated for the calls an object has received: two used objects with the same guess give the same result. -/
theorem used_solve_agree [NeZero n] {New : qps.Mem → Prop} {env : Env K n me mi prec qps} (hn : ∀ m, New m → Good m) (hf : HistoryFreeOn Good env)
    {st st' r : State K n me mi prec qps} (u : Used New st) (u' : Used New st') (hx : st.x = st'.x) (hl : st.lam = st'.lam) (h : solve env st = some r) :
    ∃ r', solve env st' = some r' ∧ Agree r r' := by
  obtain ⟨r', h1, h2⟩ := solve_history_independent_on hf (u.good hn hf.keep) (u'.good hn hf.keep) hx hl h
  exact ⟨r', h1, h2.agree⟩

/-! ## boxADMM -/

section Box

variable {n me mi : ℕ} {both : Bool}
  {lin : BoxAdmm.KktMat ℝ n (me + mi) → (BoxAdmm.KktIdx n (me + mi) → ℝ) → (BoxAdmm.KktIdx n (me + mi) → ℝ)} {sq : ℝ → ℝ} {qcfg : QPBase.Settings ℝ}

/-- A new `boxADMM` object, whatever the uninitialised members hold. -/
def NewBox (both : Bool) (lin : BoxAdmm.KktMat ℝ n (me + mi) → (BoxAdmm.KktIdx n (me + mi) → ℝ) → (BoxAdmm.KktIdx n (me + mi) → ℝ)) (sq : ℝ → ℝ)
    (qcfg : QPBase.Settings ℝ) (m : (SqpSparse.boxQps both lin sq qcfg).Mem) : Prop :=
  ∃ v x c, m = BoxAdmm.fresh qcfg v x c

theorem box_historyFree {prec : Precond ℝ n (me + mi)} (hI : qcfg.adaptiveRho = true → qcfg.adaptiveRhoInterval ≠ 0) (hl : BoxAdmm.ReadsTriangle both lin)
    (hp : ∀ m m' qp, prec.compute m qp = prec.compute m' qp) (eps : ℝ) (cfg : Settings ℝ) (prob : Problem ℝ n me mi) (bd : Bounds ℝ n mi) :
    HistoryFreeOn (qps := SqpSparse.boxQps both lin sq qcfg) (fun m => BoxAdmm.CleanCorner (BoxAdmm.State.kkt m))
      (defaultEnv eps cfg prob bd : Env ℝ n me mi prec (SqpSparse.boxQps both lin sq qcfg)) where
  prec := hp
  same := by
    intro m m' qp g g'
    rcases BoxAdmm.solve_history_independent (sq := sq) (cfg := qcfg) (qp := qp) (xg := 0) (yg := 0) hl g g' with
      ⟨h, -⟩ | ⟨a, b, ha, hb, e1, e2, -, -, -, -, e4, -⟩
    · obtain ⟨s, hs⟩ := BoxAdmm.solve_total (both := both) (lin := lin) (sq := sq) (qp := qp) hI 0 0 m
      rw [h] at hs; cases hs
    · rw [SqpSparse.boxQps_solve ha, SqpSparse.boxQps_solve hb, e1, e2, e4]
  keep := by
    intro m qp g
    obtain ⟨s, hs⟩ := BoxAdmm.solve_total (both := both) (lin := lin) (sq := sq) (qp := qp) hI 0 0 m
    rw [SqpSparse.boxQps_solve hs]
    exact BoxAdmm.cleanCorner_solve g hs
  step := fun _ _ _ _ _ _ => lineSearchLoop_logged ..

/-- **C218.** The SQP solver with `boxADMM`, its default QP solver: two objects that have been used for any sequences of solves and guesses before, with the same guess now,
produce the same solution, multipliers, iteration counts, status, norms and last QP. Assumed of the decomposition: it reads only the triangle it is told to read. -/
theorem box_solve_history_independent [NeZero n] (hI : qcfg.adaptiveRho = true → qcfg.adaptiveRhoInterval ≠ 0) (hl : BoxAdmm.ReadsTriangle both lin)
    {eps : ℝ} {cfg : Settings ℝ} {prob : Problem ℝ n me mi} {bd : Bounds ℝ n mi}
    {st st' r : State ℝ n me mi (identityPrecond ℝ n (me + mi)) (SqpSparse.boxQps both lin sq qcfg)} (u : Used (NewBox both lin sq qcfg) st)
    (u' : Used (NewBox both lin sq qcfg) st') (hx : st.x = st'.x) (hlam : st.lam = st'.lam) (h : solve (boxEnv both lin sq qcfg eps cfg prob bd) st = some r) :
    ∃ r', solve (boxEnv both lin sq qcfg eps cfg prob bd) st' = some r' ∧ Agree r r' :=
  used_solve_agree (Good := fun m => BoxAdmm.CleanCorner (BoxAdmm.State.kkt m))
    (by rintro m ⟨v, x, c, rfl⟩; exact BoxAdmm.cleanCorner_fresh qcfg v x c)
    (box_historyFree hI hl (fun _ _ _ => rfl) eps cfg prob bd) u u' hx hlam h

/-- C218 with Ruiz equilibration of the QPs. -/
theorem box_ruiz_solve_history_independent [NeZero n] [NeZero (me + mi)] (hI : qcfg.adaptiveRho = true → qcfg.adaptiveRhoInterval ≠ 0) (hl : BoxAdmm.ReadsTriangle both lin)
    (var : Ruiz.Variant ℝ n (me + mi)) (rsq : ℝ → ℝ) {eps : ℝ} {cfg : Settings ℝ} {prob : Problem ℝ n me mi} {bd : Bounds ℝ n mi}
    {st st' r : State ℝ n me mi (ruizPrecond var rsq) (SqpSparse.boxQps both lin sq qcfg)} (u : Used (NewBox both lin sq qcfg) st)
    (u' : Used (NewBox both lin sq qcfg) st') (hx : st.x = st'.x) (hlam : st.lam = st'.lam)
    (h : solve (defaultEnv eps cfg prob bd) st = some r) :
    ∃ r', solve (defaultEnv eps cfg prob bd) st' = some r' ∧ Agree r r' :=
  used_solve_agree (Good := fun m => BoxAdmm.CleanCorner (BoxAdmm.State.kkt m))
    (by rintro m ⟨v, x, c, rfl⟩; exact BoxAdmm.cleanCorner_fresh qcfg v x c)
    (box_historyFree hI hl (fun _ _ _ => rfl) eps cfg prob bd) u u' hx hlam h

/-- The inverse of the triangle that is read. -/
noncomputable def invLin (A : BoxAdmm.KktMat ℝ n (me + mi)) (b : BoxAdmm.KktIdx n (me + mi) → ℝ) : BoxAdmm.KktIdx n (me + mi) → ℝ := (BoxAdmm.effective false A)⁻¹ *ᵥ b

/-- C218 with the inverse of the triangle that is read as decomposition and the settings of `SQPBase`: nothing is assumed, and the object may be new or have solved
another problem first. -/
example [NeZero n] {cfg cfg' : Settings ℝ} {prob prob' : Problem ℝ n me mi} {bd bd' : Bounds ℝ n mi} (eps : ℝ)
    {new mid r : State ℝ n me mi (identityPrecond ℝ n (me + mi)) (SqpSparse.boxQps false invLin Real.sqrt qpSettings)}
    (hn : NewBox false invLin Real.sqrt qpSettings new.qpMem) (h1 : solve (boxEnv false invLin Real.sqrt qpSettings eps cfg' prob' bd') new = some mid)
    (h2 : solve (boxEnv false invLin Real.sqrt qpSettings eps cfg prob bd) { new with x := 0, lam := 0 } = some r) :
    ∃ r', solve (boxEnv false invLin Real.sqrt qpSettings eps cfg prob bd) { mid with x := 0, lam := 0 } = some r' ∧ Agree r r' := by
  have hl : BoxAdmm.ReadsTriangle false (invLin : BoxAdmm.KktMat ℝ n (me + mi) → _) := fun A B h => by funext b; simp only [invLin, h]
  have u : Used (NewBox false invLin Real.sqrt qpSettings) new := Used.new hn
  exact box_solve_history_independent (by intro _; norm_num [qpSettings]) hl (u.guess 0 0) ((u.call _ h1).guess 0 0) rfl rfl h2

end Box

/-! ## ADMM -/

theorem admmQps_solve {N M : ℕ} {both : Bool} {lin : Admm.KktMat K N M → (Admm.KktIdx N M → K) → (Admm.KktIdx N M → K)} {sq : K → K}
    {cfg : QPBase.Settings K} {qp : QP K N M} {mem s : Admm.State K N M} (h : Admm.solve both lin sq cfg qp 0 0 mem = some s) :
    (admmQps both lin sq cfg).solve mem qp = (s, s.x, s.y, s.info.iter) := by
  simp only [admmQps]
  rw [h]

/-- C218 with ADMM as the QP solver, for objects in any state whatever. -/
theorem admm_solve_history_independent [NeZero n] {both : Bool}
    {lin : Admm.KktMat K n (me + mi) → (Admm.KktIdx n (me + mi) → K) → (Admm.KktIdx n (me + mi) → K)} {sq : K → K} {qcfg : QPBase.Settings K}
    (hI : qcfg.adaptiveRho = false ∨ qcfg.adaptiveRhoInterval ≠ 0) (hl : Admm.ReadsTriangle both lin)
    {eps : K} {cfg : Settings K} {prob : Problem K n me mi} {bd : Bounds K n mi}
    {st st' r : State K n me mi (identityPrecond K n (me + mi)) (admmQps both lin sq qcfg)} (hx : st.x = st'.x) (hlam : st.lam = st'.lam)
    (h : solve (defaultEnv eps cfg prob bd) st = some r) : ∃ r', solve (defaultEnv eps cfg prob bd) st' = some r' ∧ Agree r r' := by
  refine solve_history_independent (default_historyFree ?_).1 hx hlam h
  intro m m' qp
  rcases Admm.solve_history_independent (sq := sq) (cfg := qcfg) (qp := qp) (xg := 0) (yg := 0) hl m m' with ⟨h, -⟩ | ⟨a, b, ha, hb, e1, e2, -, -, -, e4⟩
  · have hs := Admm.solve_defined (both := both) (lin := lin) (sq := sq) (qp := qp) (xg := 0) (yg := 0) (old := m) hI
    rw [h] at hs; cases hs
  · rw [admmQps_solve ha, admmQps_solve hb, e1, e2, e4]

end PolyMPC.Sqp
