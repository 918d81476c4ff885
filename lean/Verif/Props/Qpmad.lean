import Verif.Model.QpAdapters
import Verif.Lemmas.Sqp
import Verif.Lemmas.QP

/-!
# The adapter to qpmad (C116, C117)

The adapter never writes the multipliers. Every multiplier computed by the SQP solver with it is a combination of the guess and of the vector
that the adapter happens to hold; if both are zero, all multipliers are zero and the line search ignores the constraints.
-/

namespace PolyMPC.Qpmad
open Matrix PolyMPC.Spec PolyMPC.QPBase

set_option linter.unusedSectionVars false
set_option linter.unusedVariables false

variable {K : Type} [Field K] [LinearOrder K] [IsStrictOrderedRing K]

section
variable {N M : ℕ} {E : Engine K N M}

/-- One call, with or without guesses. -/
structure Call (E : Engine K N M) where
  cfg : E.Cfg
  qp : QP K N M
  g : Option ((Fin N → K) × (Fin M ⊕ Fin N → K))

/-- One call on an object. -/
def call (c : Call E) (o : Obj E) : Obj E × Status :=
  match c.g with
  | none => solve c.cfg c.qp o
  | some (x, y) => solveFrom c.cfg c.qp x y o

/-- Consecutive calls; the status is that of the last one. -/
def run : List (Call E) → Obj E × Status → Obj E × Status
  | [], s => s
  | c :: l, s => run l (call c s.1)

theorem solve_fields (cfg : E.Cfg) (qp : QP K N M) (o : Obj E) : (solve cfg qp o).1.y = o.y ∧ (solve cfg qp o).1.info.iter = o.info.iter ∧
    (solve cfg qp o).1.x = (E.run cfg o.mem qp o.x).2.1 ∧ ((solve cfg qp o).2 = .UNSOLVED → (solve cfg qp o).1.info = o.info) := by
  unfold solve
  rcases E.run cfg o.mem qp o.x with ⟨mem, x, s⟩
  cases s <;> simp

theorem call_fields (c : Call E) (o : Obj E) : (call c o).1.y = o.y ∧ (call c o).1.info.iter = o.info.iter ∧
    ((call c o).2 = .UNSOLVED → (call c o).1.info = o.info) := by
  unfold call
  rcases c.g with _ | ⟨x, y⟩
  · obtain ⟨h1, h2, -, h4⟩ := solve_fields c.cfg c.qp o
    exact ⟨h1, h2, h4⟩
  · obtain ⟨h1, h2, -, h4⟩ := solve_fields c.cfg c.qp { o with x := x }
    exact ⟨h1, h2, h4⟩

/-- C116. Whatever is solved, with or without guesses, the multipliers and the iteration count stay what they were. -/
theorem qpmad_duals (l : List (Call E)) : ∀ s : Obj E × Status, (run l s).1.y = s.1.y ∧ (run l s).1.info.iter = s.1.info.iter := by
  induction l with
  | nil => exact fun s => ⟨rfl, rfl⟩
  | cons c l ih =>
    intro s
    obtain ⟨h1, h2, -⟩ := call_fields c s.1
    obtain ⟨i1, i2⟩ := ih (call c s.1)
    exact ⟨i1.trans h1, i2.trans h2⟩

/-- C116. A call that fails leaves in `info()` the status of the call before. -/
theorem qpmad_stale_status (l : List (Call E)) (c : Call E) (s : Obj E × Status) (h : (run (l ++ [c]) s).2 = .UNSOLVED) :
    (run (l ++ [c]) s).1.info.status = (run l s).1.info.status := by
  induction l generalizing s with
  | nil => exact congrArg Info.status ((call_fields c s.1).2.2 h)
  | cons d l ih => exact ih (call d s.1) h

/-- C116. Consequently the pairs left after two calls are both KKT pairs only if the gradients `H x + h` differ by the change of the
constraint matrix applied to one and the same vector of multipliers. -/
theorem qpmad_kkt_both {l l' : List (Call E)} {qp qp' : QP K N M} {s : Obj E × Status} (h : qp.KKT (run l s).1.x (run l s).1.y)
    (h' : qp'.KKT (run l' (run l s)).1.x (run l' (run l s)).1.y) (hA : qp.A = qp'.A) :
    qp.H *ᵥ (run l s).1.x + qp.h = qp'.H *ᵥ (run l' (run l s)).1.x + qp'.h := by
  rw [(qpmad_duals l' _).1] at h'
  have h1 := h.1
  have h2 := h'.1
  unfold QP.lagrangianGradient at h1 h2
  rw [hA] at h1
  rw [add_assoc] at h1 h2
  exact (add_right_cancel (h1.trans h2.symm))

end

/-! ### SQP with qpmad -/

section
variable {n me mi : ℕ} [NeZero n] {E : Engine K n (me + mi)} {cfg : E.Cfg}

/-- What every iteration keeps. -/
theorem step_lam {env : Sqp.Env K n me mi (Sqp.identityPrecond K n (me + mi)) (qpSolver E cfg)}
    {q s : Sqp.State K n me mi (Sqp.identityPrecond K n (me + mi)) (qpSolver E cfg)} (h : Sqp.qpStep env q = some s) :
    ∃ a, s.lam = (fun i => q.lam i + a * ((q.qpMem : Obj E).y i - q.lam i)) ∧ s.lamK = (q.qpMem : Obj E).y ∧
      (s.qpMem : Obj E).y = (q.qpMem : Obj E).y := by
  obtain ⟨mem, scaled, p, lamK, alpha, logged, h1, h2, -, h3, h4, -, -, h5, -, -, -, -, -, -, -, -, h6⟩ := Sqp.qpStep_spec h
  have hy : ((solve cfg scaled (q.qpMem : Obj E)).1).y = (q.qpMem : Obj E).y := (solve_fields cfg scaled q.qpMem).1
  have e : lamK = (q.qpMem : Obj E).y := (congrArg Prod.snd h2).trans hy
  refine ⟨alpha, ?_, h4.trans e, ?_⟩
  · rw [h5, e]; rfl
  · rw [h6]; exact hy

/-- C117. Every multiplier that the SQP solver computes with qpmad lies on the line through the guess and the vector held by the adapter. -/
theorem sqp_qpmad_line {env : Sqp.Env K n me mi (Sqp.identityPrecond K n (me + mi)) (qpSolver E cfg)}
    {st s : Sqp.State K n me mi (Sqp.identityPrecond K n (me + mi)) (qpSolver E cfg)} (h : Sqp.Visited env st s) :
    (∃ t, s.lam = fun i => st.lam i + t * ((st.qpMem : Obj E).y i - st.lam i)) ∧ s.lamK = (st.qpMem : Obj E).y ∧
      (s.qpMem : Obj E).y = (st.qpMem : Obj E).y := by
  induction h with
  | first hp =>
    unfold Sqp.firstPass at hp
    rw [Option.map_eq_some_iff] at hp
    obtain ⟨s2, h2, rfl⟩ := hp
    obtain ⟨a, h3, h4, h5⟩ := step_lam h2
    exact ⟨⟨a, h3⟩, h4, h5⟩
  | @next v s' hv ht hlt hp ih =>
    obtain ⟨⟨t, i1⟩, -, i3⟩ := ih
    obtain ⟨s1, s2, h1, h2, rfl⟩ := Sqp.pass_parts hp
    obtain ⟨H, -, rfl⟩ := Sqp.updateLinearisation_spec h1
    obtain ⟨a, h3, h4, h5⟩ := step_lam h2
    obtain ⟨-, c2, -, -, -, -, -, -, c9, -⟩ := Sqp.callback_fields env s2
    have cm : (Sqp.callback env s2).qpMem = s2.qpMem := by unfold Sqp.callback; split <;> rfl
    have e3 : ((v.qpMem : Obj E).y) = (st.qpMem : Obj E).y := i3
    refine ⟨⟨t + a - a * t, ?_⟩, (c9.trans h4).trans i3, ?_⟩
    · change (Sqp.callback env s2).lam = _
      rw [c2, h3]
      funext i
      have hv' : v.lam i = st.lam i + t * ((st.qpMem : Obj E).y i - st.lam i) := congrFun i1 i
      simp only [hv', e3]
      ring
    · change ((Sqp.callback env s2).qpMem : Obj E).y = _
      rw [cm, h5]
      exact i3

/-- C117. If the guess of the multipliers and the vector held by the adapter are zero, `solve` returns zero multipliers; if it returns a KKT pair,
then the gradient of the cost is zero there, that is, no constraint matters. -/
theorem sqp_qpmad_zero {env : Sqp.Env K n me mi (Sqp.identityPrecond K n (me + mi)) (qpSolver E cfg)}
    {st r : Sqp.State K n me mi (Sqp.identityPrecond K n (me + mi)) (qpSolver E cfg)} (h : Sqp.solve env st = some r)
    (h0 : st.lam = 0) (hy : (st.qpMem : Obj E).y = 0) : r.lam = 0 ∧ r.lamK = 0 ∧
      ∀ (JE : Matrix (Fin me) (Fin n) K) (JI : Matrix (Fin mi) (Fin n) K) (grad : Fin n → K),
        NlpKKT grad JE JI (env.prob.eq r.x) (env.prob.ineq r.x) env.bd.lbg env.bd.ubg r.x env.bd.lbx env.bd.ubx
          (fun i => r.lam (Sum.inl (Fin.castAdd mi i))) (fun i => r.lam (Sum.inl (Fin.natAdd me i))) (fun i => r.lam (Sum.inr i)) → grad = 0 := by
  obtain ⟨s, hv, hr⟩ := Sqp.solve_cases h
  obtain ⟨⟨t, h1⟩, h2, -⟩ := sqp_qpmad_line hv
  have hl : s.lam = 0 := by rw [h1, h0, hy]; funext i; simp
  have hk : s.lamK = 0 := h2.trans hy
  have key : r.lam = 0 ∧ r.lamK = 0 := by
    rcases hr with ⟨-, rfl⟩ | ⟨-, -, rfl⟩
    · exact ⟨hl, hk⟩
    · exact ⟨hl, hk⟩
  refine ⟨key.1, key.2, fun JE JI grad hkkt => ?_⟩
  have := hkkt.1
  rw [key.1] at this
  simpa [show (fun i : Fin me => (0 : K)) = 0 from rfl, show (fun i : Fin mi => (0 : K)) = 0 from rfl,
    show (fun i : Fin n => (0 : K)) = 0 from rfl, Matrix.mulVec_zero] using this

/-- C117. With zero multipliers the line search does not see the constraints: it takes the same step for every other set of constraints and
bounds. -/
theorem lineSearch_blind (eps : K) (cfg : Sqp.Settings K) {prob prob' : Sqp.Problem K n me mi} (bd bd' : Sqp.Bounds K n mi)
    (hc : prob.cost = prob'.cost) (h x p : Fin n → K) (logged : K) :
    Sqp.lineSearch eps cfg prob bd h 0 x p logged = Sqp.lineSearch eps cfg prob' bd' h 0 x p logged := by
  have hmu : infNorm (0 : Sqp.Dual K n me mi) = 0 := by
    rcases infNorm_attained (0 : Sqp.Dual K n me mi) with e | ⟨i, e⟩
    · exact e
    · rw [← e]; simp
  unfold Sqp.lineSearch
  rw [hmu, hc]
  simp only [zero_mul, sub_zero, add_zero]
  have key : ∀ (viol viol' : (Fin n → K) → K) (phi D : K) (fuel : ℕ) (a b : K),
      Sqp.lineSearchLoop cfg.tau cfg.eta phi D 0 prob'.cost viol x p fuel a b =
        Sqp.lineSearchLoop cfg.tau cfg.eta phi D 0 prob'.cost viol' x p fuel a b := by
    intro viol viol' phi D fuel
    induction fuel with
    | zero => intro a b; rfl
    | succ fuel ih =>
      intro a b
      rw [Sqp.lineSearchLoop, Sqp.lineSearchLoop]
      simp only [zero_mul, add_zero]
      split
      · rfl
      · exact ih _ _
  exact key _ _ _ _ _ _ _
end

/-! ### Examples -/

/-- A solver for one variable and one equation. -/
def exE : Engine ℚ 1 1 where
  Cfg := Unit
  Mem := Unit
  run _ _ qp x := ((), if qp.A 0 0 = 0 then (x, .other) else (fun _ => qp.Alb 0 / qp.A 0 0, .ok))

/-- minimise `x²` subject to `a x = b`, `-9 ≤ x ≤ 9`. -/
def exQP (a b : ℚ) : QP ℚ 1 1 := ⟨fun _ _ => 2, fun _ => 0, fun _ _ => a, fun _ => b, fun _ => b, fun _ => -9, fun _ => 9⟩

def exO : Obj exE := ⟨fun _ => 0, fun _ => 0, Info.default, ()⟩

/-- The solution `x = 1` of the first problem is found, but the multipliers stay zero, so that the pair is not a KKT pair; the second call
fails and `info()` still says SOLVED. -/
example : (fun s : Obj exE × Status => (s.1.x 0, s.1.info.status, s.2)) (run [⟨(), exQP 1 1, none⟩] (exO, .UNINITIALIZED)) = (1, .SOLVED, .SOLVED) ∧
    ¬ (exQP 1 1).KKT (run [⟨(), exQP 1 1, none⟩] (exO, .UNINITIALIZED)).1.x (run [⟨(), exQP 1 1, none⟩] (exO, .UNINITIALIZED)).1.y ∧
    (exQP 1 1).KKT (fun _ => 1) (Sum.elim (fun _ => -2) fun _ => 0) ∧
    (fun s : Obj exE × Status => (s.1.info.status, s.2)) (run [⟨(), exQP 1 1, none⟩, ⟨(), exQP 0 1, none⟩] (exO, .UNINITIALIZED)) =
      (.SOLVED, .UNSOLVED) := by
  refine ⟨by decide +kernel, fun h => ?_, ⟨?_, ?_⟩, by decide +kernel⟩
  · exact absurd (congrFun h.1 0) (by decide +kernel)
  · funext j
    fin_cases j
    decide +kernel
  · rintro (i | i) <;> norm_num [QP.lower, QP.upper, QP.rows, exQP, Matrix.mulVec, dotProduct]

/-- minimise `x²` subject to `x = 1` with the SQP solver, from `x = 0`. -/
def exProb : Sqp.Problem ℚ 1 1 0 where
  cost x := x 0 * x 0
  eq x _ := x 0 - 1
  ineq _ := Fin.elim0
  costGrad x _ := 2 * x 0
  constr x _ := x 0 - 1
  jac _ _ _ := 1
  lagGrad x l _ := 2 * x 0 + l (Sum.inl 0) + l (Sum.inr 0)
  lagHess _ _ _ _ := 2

def exEnv : Sqp.Env ℚ 1 1 0 (Sqp.identityPrecond ℚ 1 1) (qpSolver exE ()) :=
  Sqp.defaultEnv (1 / 1000) { Sqp.Settings.default with maxIter := 3, lineSearchMaxIter := 5 } exProb ⟨fun _ => -9, fun _ => 9, Fin.elim0, Fin.elim0⟩

def exSt : Sqp.State ℚ 1 1 0 (Sqp.identityPrecond ℚ 1 1) (qpSolver exE ()) where
  x _ := 0
  lam _ := 0
  lamK _ := 0
  qp := exQP 1 1
  cost := 0
  iter := 0
  qpIter := 0
  status := .MAX_ITER_EXCEEDED
  lagGradient _ := 0
  stepPrev _ := 0
  primalNorm := 0
  dualNorm := 0
  maxViolation := 0
  precMem := PUnit.unit
  qpMem := exO
  callbacks := []

/-- Every direction points to the solution, but each step is cut to one sixteenth because it increases the cost. -/
example : (Sqp.solve exEnv exSt).map (fun s => (s.x 0, s.lam (Sum.inl 0), s.status)) = some (721 / 4096, 0, .MAX_ITER_EXCEEDED) := by
  decide +kernel

end PolyMPC.Qpmad
