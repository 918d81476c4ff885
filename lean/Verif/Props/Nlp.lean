import Verif.Model.Nlp
import Verif.Props.AutoDiff
import Verif.Lemmas.OcpCalc

/-!
# Nonlinear programs with automatic differentiation
-/

namespace PolyMPC.Nlp
open PolyMPC.AD PolyMPC.Spec Ops
open scoped Topology

set_option linter.unusedSectionVars false

variable {n e q : ℕ}

/-! ### What a callback computes -/

/-- The function of plain numbers a callback computes when its out-parameter is zero before. -/
noncomputable def Prog.fn (P : Prog n) (z : Fin n → ℝ) : ℝ := P.run z 0

/-- The expressions of a callback. -/
def Prog.exprs : Prog n → List (Expr n)
  | [] => []
  | .set e :: P => e :: Prog.exprs P
  | .add e :: P => e :: Prog.exprs P
  | .setNum _ :: P => Prog.exprs P

/-- All expressions are defined and differentiable at `x`. -/
def Prog.Ok (P : Prog n) (x : Fin n → ℝ) : Prop := ∀ e ∈ P.exprs, e.Ok x

/-- No use of `pow`, which nested AD scalars do not support. -/
def Prog.NoPow (P : Prog n) : Prop := ∀ e ∈ P.exprs, e.NoPow

/-- The callback does not assign plain numbers. -/
def Prog.Clean : Prog n → Prop
  | [] => True
  | .setNum _ :: _ => False
  | _ :: P => Prog.Clean P

/-- The callback starts with an assignment of an expression. -/
def Prog.Definite : Prog n → Prop
  | .set _ :: P => Prog.Clean P
  | _ => False

theorem Prog.Definite.clean {P : Prog n} (h : P.Definite) : P.Clean := by
  match P, h with
  | .set _ :: _, h => exact h

theorem Prog.Definite.indep {P : Prog n} (h : P.Definite) {S : Type} [Ops S] [Out S] (env : Fin n → S) (a b : S) : P.run env a = P.run env b := by
  match P, h with
  | .set _ :: _, _ => rfl

theorem Prog.run_val {m : ℕ} (P : Prog n) (env : Fin n → Dual m ℝ) (d : Dual m ℝ) : (P.run env d).val = P.run (fun i => (env i).val) d.val := by
  induction P generalizing d with
  | nil => rfl
  | cons s P ih =>
    change (Prog.run P env (Stmt.run env d s)).val = Prog.run P _ (Stmt.run _ d.val s)
    rw [ih]
    congr 1
    cases s with
    | set e => exact ad_value e env
    | setNum c => rfl
    | add e => exact congrArg (d.val + ·) (ad_value e env)

theorem Prog.tracks {P : Prog n} (hc : P.Clean) {x : Fin n → ℝ} (hP : P.Ok x) {d : Dual n ℝ} {g : (Fin n → ℝ) → ℝ} (hd : Tracks d g x) :
    Tracks (P.run (seed x) d) (fun z => P.run z (g z)) x := by
  induction P generalizing d g with
  | nil => exact hd
  | cons s P ih =>
    cases s with
    | set e =>
      have he : Tracks (e.eval (seed x)) (fun z => e.eval z) x := ad_gradient e x (hP e (by simp [Prog.exprs]))
      exact ih hc (fun e' h' => hP e' (by simp [Prog.exprs, h'])) he
    | setNum c => exact absurd hc id
    | add e =>
      have he : Tracks (e.eval (seed x)) (fun z => e.eval z) x := ad_gradient e x (hP e (by simp [Prog.exprs]))
      exact ih hc (fun e' h' => hP e' (by simp [Prog.exprs, h'])) (hd.add he)

theorem Tracks2.add {r s : Dual n (Dual n ℝ)} {F G : (Fin n → ℝ) → Dual n ℝ} {x : Fin n → ℝ} (hr : Tracks2 r F x) (hs : Tracks2 s G x) :
    Tracks2 (Ops.add r s) (fun z => Ops.add (F z) (G z)) x := ⟨hr.1.add hs.1, fun i => (hr.2 i).add (hs.2 i)⟩

theorem Prog.tracks2 {P : Prog n} (hc : P.Clean) {x : Fin n → ℝ} (hP : P.Ok x) (hp : P.NoPow) {d : Dual n (Dual n ℝ)} {G : (Fin n → ℝ) → Dual n ℝ}
    (hd : Tracks2 d G x) : Tracks2 (P.run (seed2 x) d) (fun z => P.run (seed z) (G z)) x := by
  induction P generalizing d G with
  | nil => exact hd
  | cons s P ih =>
    cases s with
    | set e =>
      have he : Tracks2 (e.eval (seed2 x)) (fun z => e.eval (seed z)) x :=
        Tracks2.expr e (g := fun z => seed z) (tracks2_seed x) (hP e (by simp [Prog.exprs])) (hp e (by simp [Prog.exprs]))
      exact ih hc (fun e' h' => hP e' (by simp [Prog.exprs, h'])) (fun e' h' => hp e' (by simp [Prog.exprs, h'])) he
    | setNum c => exact absurd hc id
    | add e =>
      have he : Tracks2 (e.eval (seed2 x)) (fun z => e.eval (seed z)) x :=
        Tracks2.expr e (g := fun z => seed z) (tracks2_seed x) (hP e (by simp [Prog.exprs])) (hp e (by simp [Prog.exprs]))
      exact ih hc (fun e' h' => hP e' (by simp [Prog.exprs, h'])) (fun e' h' => hp e' (by simp [Prog.exprs, h'])) (Tracks2.add hd he)

theorem Prog.ok_open {P : Prog n} {x : Fin n → ℝ} (h : P.Ok x) : ∀ᶠ z in 𝓝 x, P.Ok z := by
  unfold Prog.Ok at *
  generalize P.exprs = L at h ⊢
  induction L with
  | nil => simp
  | cons e L ih =>
    filter_upwards [AD.ok_open e (h e (by simp)), ih fun e' h' => h e' (by simp [h'])] with z h1 h2 e' h'
    rcases List.mem_cons.1 h' with rfl | h'
    · exact h1
    · exact h2 e' h'

theorem _root_.PolyMPC.Spec.IsHessian.symm {f : (Fin n → ℝ) → ℝ} {H : Fin n → Fin n → ℝ} {x : Fin n → ℝ} (h : IsHessian f H x) (i j : Fin n) :
    H i j = H j i := by
  obtain ⟨g, hg, hH⟩ := h
  have hd : HasFDerivAt (fun z => gradMap (g z))
      (∑ i, (gradMap fun r => H r i).smulRight (ContinuousLinearMap.proj (R := ℝ) (φ := fun _ : Fin n => ℝ) i)) x := by
    show HasFDerivAt (fun z => ∑ i, g z i • ContinuousLinearMap.proj (R := ℝ) (φ := fun _ : Fin n => ℝ) i) _ x
    refine HasFDerivAt.fun_sum fun i _ => ?_
    have hi : HasFDerivAt (fun z => g z i) (gradMap fun r => H r i) x := hH i
    exact HasFDerivAt.smul_const hi (ContinuousLinearMap.proj (R := ℝ) (φ := fun _ : Fin n => ℝ) i)
  have hs := second_derivative_symmetric_of_eventually_of_real hg hd (Pi.single i 1) (Pi.single j 1)
  simpa [gradMap_apply, Pi.single_apply] using hs

/-- Value, gradient and second derivatives of the function a callback computes, from a cleared accumulator. -/
theorem Prog.second {P : Prog n} (hc : P.Clean) {x : Fin n → ℝ} (hP : P.Ok x) (hp : P.NoPow) :
    (P.run (seed2 x) (lit 0)).val.val = P.fn x ∧ IsGradient P.fn (P.run (seed2 x) (lit 0)).val.der x ∧
    IsHessian P.fn (fun r i => ((P.run (seed2 x) (lit 0)).der i).der r) x := by
  have T := Prog.tracks2 hc hP hp (tracks2_lit 0 x)
  have hv : (fun z => (P.run (seed z) (lit 0 : Dual n ℝ)).val) = P.fn := by funext z; rw [Prog.run_val]; rfl
  have hev : ∀ᶠ z in 𝓝 x, IsGradient P.fn (P.run (seed z) (lit 0 : Dual n ℝ)).der z :=
    (Prog.ok_open hP).mono fun z hz => (Prog.tracks hc hz (tracks_lit 0 z)).2
  exact ⟨T.1.1.trans (congrFun hv x), hv ▸ T.1.2, ⟨fun z => (P.run (seed z) (lit 0 : Dual n ℝ)).der, hev, fun i => (T.2 i).2⟩⟩

theorem Prog.first {P : Prog n} (hc : P.Clean) {x : Fin n → ℝ} (hP : P.Ok x) :
    (P.run (seed x) (lit 0)).val = P.fn x ∧ IsGradient P.fn (P.run (seed x) (lit 0)).der x := Prog.tracks hc hP (tracks_lit 0 x)

/-! ### Histories -/

/-- The objects that can be obtained from a constructor call on memory `J` by calls of the public functions. -/
inductive Reach (P : Problem n e q) (J : Obj n e q) : Obj n e q → Prop
  | make : Reach P J (make J)
  | costGradient {o} (x) : Reach P J o → Reach P J (costGradient P o x).2.2
  | costGradientHessian {o} (x) : Reach P J o → Reach P J (costGradientHessian P o x).2.2.2
  | equalitiesLin {o} (x) : Reach P J o → Reach P J (equalitiesLin P o x).2.2
  | inequalitiesLin {o} (x) : Reach P J o → Reach P J (inequalitiesLin P o x).2.2
  | constraintsLin {o} (x c jac) : Reach P J o → Reach P J (constraintsLin P o x c jac).2.2
  | lagrangianGradient {o} (x lam c jac) : Reach P J o → Reach P J (lagrangianGradient P o x lam c jac).2.2.2.2.2
  | lagrangianGradientHessian {o} (x lam c jac a b s) : Reach P J o → Reach P J (lagrangianGradientHessian P o x lam c jac a b s).2.2.2.2.2.2

/-- The AD variables carry the unit derivatives. -/
structure Seeded (o : Obj n e q) : Prop where
  one : ∀ x, (setVar o x).adVar = seed x
  two : ∀ x, (setVar2 o x).ad2Var = seed2 x

variable {P : Problem n e q} {J o : Obj n e q}

theorem Reach.seeded (h : Reach P J o) : Seeded o := by
  induction h with
  | make => exact ⟨fun x => rfl, fun x => rfl⟩
  | costGradient x _ ih => exact ⟨fun z => by rw [← ih.one z]; rfl, fun z => by rw [← ih.two z]; rfl⟩
  | costGradientHessian x _ ih => exact ⟨fun z => by rw [← ih.one z]; rfl, fun z => by rw [← ih.two z]; rfl⟩
  | equalitiesLin x _ ih => exact ⟨fun z => by rw [← ih.one z]; rfl, fun z => by rw [← ih.two z]; rfl⟩
  | inequalitiesLin x _ ih => exact ⟨fun z => by rw [← ih.one z]; rfl, fun z => by rw [← ih.two z]; rfl⟩
  | constraintsLin x c jac _ ih => exact ⟨fun z => by rw [← ih.one z]; rfl, fun z => by rw [← ih.two z]; rfl⟩
  | lagrangianGradient x lam c jac _ ih => exact ⟨fun z => by rw [← ih.one z]; rfl, fun z => by rw [← ih.two z]; rfl⟩
  | lagrangianGradientHessian x lam c jac a b s _ ih => exact ⟨fun z => by rw [← ih.one z]; rfl, fun z => by rw [← ih.two z]; rfl⟩

/-! ### C101: cost and its gradient -/

/-- **C101.** On every object, after any calls, `cost_gradient` returns the value and the gradient of the function the cost callback
computes when it starts from zero, whether the callback assigns or accumulates. -/
theorem costGradient_correct (h : Reach P J o) (hc : P.cost.Clean) (x : Fin n → ℝ) (hx : P.cost.Ok x) :
    (costGradient P o x).1 = P.cost.fn x ∧ IsGradient P.cost.fn (costGradient P o x).2.1 x := by
  have key : P.cost.run (setVar { o with adCost := Ops.lit 0 } x).adVar (Ops.lit 0) = P.cost.run (seed x) (lit 0) := by
    have := h.seeded.one x
    congr 1
  have F := Prog.first hc hx
  constructor
  · show 0 + (P.cost.run (setVar { o with adCost := Ops.lit 0 } x).adVar (Ops.lit 0)).val = _
    rw [key, zero_add]; exact F.1
  · show IsGradient _ (fun i => 0 + (P.cost.run (setVar { o with adCost := Ops.lit 0 } x).adVar (Ops.lit 0)).der i) x
    rw [key]; simp only [zero_add]; exact F.2

theorem costGradientHessian_eq (h : Reach P J o) (x : Fin n → ℝ) :
    (costGradientHessian P o x).2.2.2.ad2Cost = P.cost.run (seed2 x) ⟨⟨0, o.ad2Cost.val.der⟩, o.ad2Cost.der⟩ := by
  have := h.seeded.two x
  show P.cost.run (setVar2 { o with ad2Cost := ⟨⟨0, o.ad2Cost.val.der⟩, o.ad2Cost.der⟩ } x).ad2Var _ = _
  congr 1

/-- **C102.** If the cost callback begins by assigning its output, `cost_gradient_hessian` returns the value, the gradient and the
(symmetric) matrix of second derivatives, after any calls. -/
theorem costGradientHessian_correct (h : Reach P J o) (hc : P.cost.Definite) (x : Fin n → ℝ) (hx : P.cost.Ok x) (hp : P.cost.NoPow) :
    (costGradientHessian P o x).1 = P.cost.fn x ∧ IsGradient P.cost.fn (costGradientHessian P o x).2.1 x ∧
    IsHessian P.cost.fn (costGradientHessian P o x).2.2.1 x ∧
    ∀ i j, (costGradientHessian P o x).2.2.1 i j = (costGradientHessian P o x).2.2.1 j i := by
  have key := (costGradientHessian_eq h x).trans (hc.indep _ _ (lit 0))
  have F := Prog.second hc.clean hx hp
  have H : IsHessian P.cost.fn (costGradientHessian P o x).2.2.1 x := by
    show IsHessian _ (fun r i => ((costGradientHessian P o x).2.2.2.ad2Cost.der i).der r) x
    rw [key]; exact F.2.2
  refine ⟨?_, ?_, H, H.symm⟩
  · show (costGradientHessian P o x).2.2.2.ad2Cost.val.val = _
    rw [key]; exact F.1
  · show IsGradient _ (costGradientHessian P o x).2.2.2.ad2Cost.val.der x
    rw [key]; exact F.2.1

/-- The callback only accumulates. -/
def Prog.Adds (P : Prog n) : Prop := ∀ s ∈ P, ∃ e, s = .add e

theorem Prog.Adds.clean {P : Prog n} (h : P.Adds) : P.Clean := by
  induction P with
  | nil => trivial
  | cons s P ih =>
    obtain ⟨e, rfl⟩ := h s (by simp)
    exact ih fun s' h' => h s' (by simp [h'])

theorem Prog.Adds.run {P : Prog n} (h : P.Adds) {m : ℕ} (env : Fin n → Dual m ℝ) (d d' : Dual m ℝ) :
    P.run env (Ops.add d d') = Ops.add d (P.run env d') := by
  induction P generalizing d' with
  | nil => rfl
  | cons s P ih =>
    obtain ⟨e, rfl⟩ := h s (by simp)
    show Prog.run P env (Ops.add (Ops.add d d') (e.eval env)) = Ops.add d (Prog.run P env (Ops.add d' (e.eval env)))
    rw [← ih fun s' h' => h s' (by simp [h'])]
    congr 1
    show (⟨_, _⟩ : Dual m ℝ) = ⟨_, _⟩
    congr 1
    · exact add_assoc _ _ _
    · funext j; exact add_assoc _ _ _

theorem Prog.Adds.run2 {P : Prog n} (h : P.Adds) {m : ℕ} (env : Fin n → Dual m (Dual m ℝ)) (d d' : Dual m (Dual m ℝ)) :
    P.run env (Ops.add d d') = Ops.add d (P.run env d') := by
  induction P generalizing d' with
  | nil => rfl
  | cons s P ih =>
    obtain ⟨e, rfl⟩ := h s (by simp)
    show Prog.run P env (Ops.add (Ops.add d d') (e.eval env)) = Ops.add d (Prog.run P env (Ops.add d' (e.eval env)))
    rw [← ih fun s' h' => h s' (by simp [h'])]
    congr 1
    have assoc : ∀ a b c : Dual m ℝ, Ops.add (Ops.add a b) c = Ops.add a (Ops.add b c) := fun a b c => by
      show (⟨_, _⟩ : Dual m ℝ) = ⟨_, _⟩
      congr 1
      · exact add_assoc _ _ _
      · funext j; exact add_assoc _ _ _
    show (⟨_, _⟩ : Dual m (Dual m ℝ)) = ⟨_, _⟩
    congr 1
    · exact assoc _ _ _
    · funext j; exact assoc _ _ _

/-- **C102 (negative).** A cost callback that only accumulates gets the right value, but the gradient and the second derivatives are
added to those returned by the previous call (to the contents of uninitialised memory on the first one). -/
theorem costGradientHessian_accumulates (h : Reach P J o) (hc : P.cost.Adds) (x : Fin n → ℝ) (hx : P.cost.Ok x) (hp : P.cost.NoPow) :
    (costGradientHessian P o x).1 = P.cost.fn x ∧
    IsGradient P.cost.fn ((costGradientHessian P o x).2.1 - o.ad2Cost.val.der) x ∧
    IsHessian P.cost.fn (fun r i => (costGradientHessian P o x).2.2.1 r i - (o.ad2Cost.der i).der r) x ∧
    (costGradientHessian P o x).2.2.2.ad2Cost.val.der = (costGradientHessian P o x).2.1 ∧
    ∀ r i, ((costGradientHessian P o x).2.2.2.ad2Cost.der i).der r = (costGradientHessian P o x).2.2.1 r i := by
  have h0 : (⟨⟨0, o.ad2Cost.val.der⟩, o.ad2Cost.der⟩ : Dual n (Dual n ℝ)) = Ops.add ⟨⟨0, o.ad2Cost.val.der⟩, o.ad2Cost.der⟩ (lit 0) := by
    show (⟨⟨_, _⟩, _⟩ : Dual n (Dual n ℝ)) = ⟨⟨_, _⟩, _⟩
    congr 1
    · congr 1
      · exact (add_zero _).symm
      · funext j; exact (add_zero _).symm
    · funext j
      show o.ad2Cost.der j = ⟨_, _⟩
      rcases o.ad2Cost.der j with ⟨v, d⟩
      congr 1
      · exact (add_zero _).symm
      · funext j; exact (add_zero _).symm
  have key := (costGradientHessian_eq h x).trans ((congrArg _ h0).trans (hc.run2 _ _ _))
  have F := Prog.second hc.clean hx hp
  refine ⟨?_, ?_, ?_, rfl, fun r i => rfl⟩
  · show (costGradientHessian P o x).2.2.2.ad2Cost.val.val = _
    rw [key]
    exact (zero_add _).trans F.1
  · show IsGradient _ ((costGradientHessian P o x).2.2.2.ad2Cost.val.der - _) x
    rw [key]
    have e1 : (Ops.add (⟨⟨0, o.ad2Cost.val.der⟩, o.ad2Cost.der⟩ : Dual n (Dual n ℝ)) (P.cost.run (seed2 x) (lit 0))).val.der - o.ad2Cost.val.der =
        (P.cost.run (seed2 x) (lit 0)).val.der := by
      funext i
      exact add_sub_cancel_left (o.ad2Cost.val.der i) _
    rw [e1]; exact F.2.1
  · show IsHessian _ (fun r i => ((costGradientHessian P o x).2.2.2.ad2Cost.der i).der r - _) x
    rw [key]
    have e1 : (fun r i => ((Ops.add (⟨⟨0, o.ad2Cost.val.der⟩, o.ad2Cost.der⟩ : Dual n (Dual n ℝ)) (P.cost.run (seed2 x) (lit 0))).der i).der r - (o.ad2Cost.der i).der r) =
        fun r i => ((P.cost.run (seed2 x) (lit 0)).der i).der r := by
      funext r i
      exact add_sub_cancel_left ((o.ad2Cost.der i).der r) _
    rw [e1]; exact F.2.2

/-- **C102 (negative).** Calling `cost_gradient_hessian` twice at the same point with an accumulating cost: if the first answer was the
gradient, the second is twice the gradient. -/
theorem costGradientHessian_twice (h : Reach P J o) (hc : P.cost.Adds) (x v : Fin n → ℝ) (hx : P.cost.Ok x) (hp : P.cost.NoPow)
    (hv : IsGradient P.cost.fn v x) (h1 : (costGradientHessian P o x).2.1 = v) :
    (costGradientHessian P (costGradientHessian P o x).2.2.2 x).2.1 = v + v := by
  have A := costGradientHessian_accumulates h hc x hx hp
  have B := costGradientHessian_accumulates (Reach.costGradientHessian x h) hc x hx hp
  have := gradient_unique hv B.2.1
  rw [A.2.2.2.1, h1] at this
  rw [eq_sub_iff_add_eq] at this
  exact this.symm

/-! ### C103: linearised constraints -/

theorem equalitiesLin_eq (h : Reach P J o) (x : Fin n → ℝ) (i : Fin e) :
    (equalitiesLin P o x).2.2.adEq i = (P.eq i).run (seed x) (o.adEq i) := by
  show (P.eq i).run (setVar o x).adVar (o.adEq i) = _
  rw [h.seeded.one x]

theorem inequalitiesLin_eq (h : Reach P J o) (x : Fin n → ℝ) (i : Fin q) :
    (inequalitiesLin P o x).2.2.adIneq i = (P.ineq i).run (seed x) (o.adIneq i) := by
  show (P.ineq i).run (setVar o x).adVar (o.adIneq i) = _
  rw [h.seeded.one x]

theorem Prog.Definite.first {P : Prog n} (hc : P.Definite) {x : Fin n → ℝ} (hx : P.Ok x) (d : Dual n ℝ) :
    (P.run (seed x) d).val = P.fn x ∧ IsGradient P.fn (P.run (seed x) d).der x := by
  rw [hc.indep _ d (lit 0)]
  exact Prog.first hc.clean hx

theorem equalitiesLin_correct (h : Reach P J o) (x : Fin n → ℝ) (i : Fin e) (hc : (P.eq i).Definite) (hx : (P.eq i).Ok x) :
    (equalitiesLin P o x).1 i = (P.eq i).fn x ∧ IsGradient (P.eq i).fn ((equalitiesLin P o x).2.1 i) x := by
  show ((equalitiesLin P o x).2.2.adEq i).val = _ ∧ IsGradient _ ((equalitiesLin P o x).2.2.adEq i).der x
  rw [equalitiesLin_eq h]
  exact hc.first hx _

theorem inequalitiesLin_correct (h : Reach P J o) (x : Fin n → ℝ) (i : Fin q) (hc : (P.ineq i).Definite) (hx : (P.ineq i).Ok x) :
    (inequalitiesLin P o x).1 i = (P.ineq i).fn x ∧ IsGradient (P.ineq i).fn ((inequalitiesLin P o x).2.1 i) x := by
  show ((inequalitiesLin P o x).2.2.adIneq i).val = _ ∧ IsGradient _ ((inequalitiesLin P o x).2.2.adIneq i).der x
  rw [inequalitiesLin_eq h]
  exact hc.first hx _

/-- Row `r` of the stacked constraints: the equalities first, then the inequalities. -/
def row (P : Problem n e q) (r : ℕ) : Prog n :=
  if h : r < e then P.eq ⟨r, h⟩ else if h : r - e < q then P.ineq ⟨r - e, h⟩ else []

/-- **C103.** If every constraint callback begins by assigning its outputs, `constraints_linearised` returns, after any calls, in row
`r` the value and the gradient of equality `r` or inequality `r - e`; the values are those of the plain `constraints`. -/
theorem constraintsLin_correct (h : Reach P J o) (x : Fin n → ℝ) (c0 : ℕ → ℝ) (jac0 : ℕ → Fin n → ℝ) {r : ℕ} (hr : r < e + q)
    (hc : (row P r).Definite) (hx : (row P r).Ok x) :
    (constraintsLin P o x c0 jac0).1 r = (row P r).fn x ∧ IsGradient (row P r).fn ((constraintsLin P o x c0 jac0).2.1 r) x ∧
    (constraintsLin P o x c0 jac0).1 r = constraints P x c0 r := by
  have h' : Reach P J (equalitiesLin P o x).2.2 := .equalitiesLin x h
  have main : (constraintsLin P o x c0 jac0).1 r = (row P r).fn x ∧ IsGradient (row P r).fn ((constraintsLin P o x c0 jac0).2.1 r) x := by
    show stack e q (equalitiesLin P o x).1 (inequalitiesLin P (equalitiesLin P o x).2.2 x).1 c0 r = _ ∧
      IsGradient _ (stack e q (equalitiesLin P o x).2.1 (inequalitiesLin P (equalitiesLin P o x).2.2 x).2.1 jac0 r) x
    unfold row at hc hx ⊢
    unfold stack
    by_cases h1 : r < e
    · simp only [h1, dif_pos] at hc hx ⊢
      exact equalitiesLin_correct h x _ hc hx
    · have h2 : r - e < q := by omega
      simp only [h1, h2, dif_pos, dif_neg, not_false_eq_true] at hc hx ⊢
      exact inequalitiesLin_correct h' x _ hc hx
  refine ⟨main.1, main.2, main.1.trans ?_⟩
  unfold constraints stack row at *
  by_cases h1 : r < e
  · simp only [h1, dif_pos] at hc hx ⊢
    exact hc.indep _ _ _
  · have h2 : r - e < q := by omega
    simp only [h1, h2, dif_pos, dif_neg, not_false_eq_true] at hc hx ⊢
    exact hc.indep _ _ _

/-- Rows beyond the constraints are left alone. -/
theorem constraintsLin_outside (x : Fin n → ℝ) (c0 : ℕ → ℝ) (jac0 : ℕ → Fin n → ℝ) {r : ℕ} (hr : e + q ≤ r) :
    (constraintsLin P o x c0 jac0).1 r = c0 r ∧ (constraintsLin P o x c0 jac0).2.1 r = jac0 r := by
  have h1 : ¬ r < e := by omega
  have h2 : ¬ r - e < q := by omega
  constructor
  · show stack e q (equalitiesLin P o x).1 (inequalitiesLin P (equalitiesLin P o x).2.2 x).1 c0 r = _
    unfold stack; rw [dif_neg h1, dif_neg h2]
  · show stack e q (equalitiesLin P o x).2.1 (inequalitiesLin P (equalitiesLin P o x).2.2 x).2.1 jac0 r = _
    unfold stack; rw [dif_neg h1, dif_neg h2]

theorem Prog.Adds.first {P : Prog n} (hc : P.Adds) {x : Fin n → ℝ} (hx : P.Ok x) (d : Dual n ℝ) :
    (P.run (seed x) d).val = d.val + P.fn x ∧ IsGradient P.fn ((P.run (seed x) d).der - d.der) x := by
  have h0 : d = Ops.add d (lit 0) := by
    show d = ⟨_, _⟩
    rcases d with ⟨v, d⟩
    congr 1
    · exact (add_zero _).symm
    · funext j; exact (add_zero _).symm
  have F := Prog.first hc.clean hx
  have key := (congrArg (Prog.run P (seed x)) h0).trans (hc.run (seed x) d (lit 0))
  rw [key]
  constructor
  · show d.val + _ = _
    rw [F.1]
  · have e1 : (Ops.add d (P.run (seed x) (lit 0))).der - d.der = (P.run (seed x) (lit 0)).der := by
      funext i; exact add_sub_cancel_left (d.der i) _
    rw [e1]; exact F.2

/-- **C103 (negative).** An equality callback that only accumulates is evaluated on the contents left by the previous call: value and
row of the Jacobian are the previous ones plus the current ones, although the outputs of the function are cleared first. -/
theorem equalitiesLin_accumulates (h : Reach P J o) (x y : Fin n → ℝ) (i : Fin e) (hc : (P.eq i).Adds) (hy : (P.eq i).Ok y) :
    (equalitiesLin P (equalitiesLin P o x).2.2 y).1 i = (equalitiesLin P o x).1 i + (P.eq i).fn y ∧
    IsGradient (P.eq i).fn ((equalitiesLin P (equalitiesLin P o x).2.2 y).2.1 i - (equalitiesLin P o x).2.1 i) y := by
  have E := equalitiesLin_eq (Reach.equalitiesLin x h) y i
  show ((equalitiesLin P (equalitiesLin P o x).2.2 y).2.2.adEq i).val = ((equalitiesLin P o x).2.2.adEq i).val + _ ∧
    IsGradient _ (((equalitiesLin P (equalitiesLin P o x).2.2 y).2.2.adEq i).der - ((equalitiesLin P o x).2.2.adEq i).der) y
  rw [E]
  exact hc.first hy _

/-- **C103 (negative).** The same for inequalities. -/
theorem inequalitiesLin_accumulates (h : Reach P J o) (x y : Fin n → ℝ) (i : Fin q) (hc : (P.ineq i).Adds) (hy : (P.ineq i).Ok y) :
    (inequalitiesLin P (inequalitiesLin P o x).2.2 y).1 i = (inequalitiesLin P o x).1 i + (P.ineq i).fn y ∧
    IsGradient (P.ineq i).fn ((inequalitiesLin P (inequalitiesLin P o x).2.2 y).2.1 i - (inequalitiesLin P o x).2.1 i) y := by
  have E := inequalitiesLin_eq (Reach.inequalitiesLin x h) y i
  show ((inequalitiesLin P (inequalitiesLin P o x).2.2 y).2.2.adIneq i).val = ((inequalitiesLin P o x).2.2.adIneq i).val + _ ∧
    IsGradient _ (((inequalitiesLin P (inequalitiesLin P o x).2.2 y).2.2.adIneq i).der - ((inequalitiesLin P o x).2.2.adIneq i).der) y
  rw [E]
  exact hc.first hy _

/-- **C104 (negative).** If a constraint callback assigns a plain number to an output, the corresponding row of the Jacobian is, after any
calls, what the memory of the object contained when it was constructed. -/
theorem constant_constraint_row (h : Reach P J o) (x : Fin n → ℝ) (i : Fin e) (c : ℝ) (hc : P.eq i = [.setNum c]) :
    (equalitiesLin P o x).1 i = c ∧ (equalitiesLin P o x).2.1 i = (J.adEq i).der := by
  have inv : (o.adEq i).der = (J.adEq i).der := by
    induction h with
    | make => rfl
    | costGradient x _ ih => exact ih
    | costGradientHessian x _ ih => exact ih
    | inequalitiesLin x _ ih => exact ih
    | @equalitiesLin o x _ ih =>
      show ((P.eq i).run _ (o.adEq i)).der = _
      rw [hc]; exact ih
    | @constraintsLin o x _ _ _ ih =>
      show ((P.eq i).run _ (o.adEq i)).der = _
      rw [hc]; exact ih
    | @lagrangianGradient o x _ _ _ _ ih =>
      show ((P.eq i).run _ (o.adEq i)).der = _
      rw [hc]; exact ih
    | @lagrangianGradientHessian o x _ _ _ _ _ _ _ ih =>
      show ((P.eq i).run _ (o.adEq i)).der = _
      rw [hc]; exact ih
  show ((P.eq i).run _ (o.adEq i)).val = c ∧ ((P.eq i).run _ (o.adEq i)).der = _
  rw [hc]
  exact ⟨rfl, inv⟩

/-- **C104.** Assigning a plain number to the cost is harmless for `cost_gradient`: the gradient is zero. -/
theorem constant_cost_gradient (x : Fin n → ℝ) (c : ℝ) (hc : P.cost = [.setNum c]) :
    (costGradient P o x).1 = c ∧ (costGradient P o x).2.1 = 0 := by
  unfold costGradient
  rw [hc]
  exact ⟨zero_add c, funext fun i => zero_add (0 : ℝ)⟩

/-- **C104 (negative).** But `cost_gradient_hessian` returns whatever second derivatives the memory of the object contained at construction. -/
theorem constant_cost_hessian (h : Reach P J o) (x : Fin n → ℝ) (c : ℝ) (hc : P.cost = [.setNum c]) :
    (costGradientHessian P o x).1 = c ∧ (costGradientHessian P o x).2.1 = 0 ∧
    (costGradientHessian P o x).2.2.1 = fun r i => (J.ad2Cost.der i).der r := by
  have inv : o.ad2Cost.der = J.ad2Cost.der := by
    induction h with
    | make => rfl
    | costGradient x _ ih => exact ih
    | inequalitiesLin x _ ih => exact ih
    | equalitiesLin x _ ih => exact ih
    | constraintsLin x _ _ _ ih => exact ih
    | lagrangianGradient x _ _ _ _ ih => exact ih
    | costGradientHessian x _ ih =>
      unfold Nlp.costGradientHessian
      rw [hc]; exact ih
    | lagrangianGradientHessian x _ _ _ _ _ _ _ ih =>
      unfold Nlp.lagrangianGradientHessian Nlp.costGradientHessian
      rw [hc]; exact ih
  unfold costGradientHessian
  rw [hc]
  refine ⟨rfl, rfl, ?_⟩
  funext r i
  exact congrArg (fun d => (d i).der r) inv

/-! ### C105: the Lagrangian -/

/-- The Lagrangian with the cost scaled by `s`: `s f + λᵀc + μᵀg + νᵀz`, multipliers stacked in this order. -/
noncomputable def lagFn (P : Problem n e q) (lam : ℕ → ℝ) (s : ℝ) (z : Fin n → ℝ) : ℝ :=
  s * P.cost.fn z + (∑ i : Fin e, lam i * (P.eq i).fn z) + (∑ i : Fin q, lam (e + i) * (P.ineq i).fn z) + ∑ i : Fin n, lam (e + q + i) * z i

/-- All callbacks begin by assigning their outputs. -/
structure AllDefinite (P : Problem n e q) : Prop where
  cost : P.cost.Definite
  eq : ∀ i, (P.eq i).Definite
  ineq : ∀ i, (P.ineq i).Definite

/-- All callbacks are differentiable at `x`. -/
structure AllOk (P : Problem n e q) (x : Fin n → ℝ) : Prop where
  cost : P.cost.Ok x
  eq : ∀ i, (P.eq i).Ok x
  ineq : ∀ i, (P.ineq i).Ok x

/-- No callback uses `pow`. -/
structure AllNoPow (P : Problem n e q) : Prop where
  cost : P.cost.NoPow
  eq : ∀ i, (P.eq i).NoPow
  ineq : ∀ i, (P.ineq i).NoPow

/-- **C105.** `lagrangian` evaluates the Lagrangian, whatever the variable passed contained. -/
theorem lagrangian_correct (hP : AllDefinite P) (x : Fin n → ℝ) (lam : ℕ → ℝ) (out : ℝ) (c0 : Fin e → ℝ) (g0 : Fin q → ℝ) :
    lagrangian P x lam out c0 g0 = lagFn P lam 1 x := by
  unfold lagrangian lagFn cost equalities inequalities
  rw [hP.cost.indep x out 0]
  have h1 : ∀ i : Fin e, (P.eq i).run x (c0 i) = (P.eq i).fn x := fun i => (hP.eq i).indep x _ _
  have h2 : ∀ i : Fin q, (P.ineq i).run x (g0 i) = (P.ineq i).fn x := fun i => (hP.ineq i).indep x _ _
  simp only [h1, h2, mul_comm (lam _)]
  rw [one_mul, ← add_assoc, ← add_assoc]
  rfl

theorem sum_rows (F : ℕ → ℝ) : ∑ r ∈ Finset.range (e + q), F r = (∑ i : Fin e, F i) + ∑ i : Fin q, F (e + i) := by
  rw [Finset.sum_range_add, Finset.sum_range, Finset.sum_range]

theorem isGradient_coord (i : Fin n) (x : Fin n → ℝ) : IsGradient (fun z => z i) (fun j => if j = i then 1 else 0) x := (tracks_seed x i).2

/-- The gradient of the Lagrangian from the gradients of its parts. -/
theorem lagFn_gradient {x : Fin n → ℝ} {lam : ℕ → ℝ} {grad : Fin n → ℝ} {jac : ℕ → Fin n → ℝ} (h0 : IsGradient P.cost.fn grad x)
    (h1 : ∀ r < e + q, IsGradient (row P r).fn (jac r) x) : IsGradient (lagFn P lam 1) (lagGradOf e q jac lam grad) x := by
  have A : IsGradient (fun z => ∑ i : Fin e, lam i * (P.eq i).fn z) (fun c => ∑ i : Fin e, lam i * jac i c) x :=
    Ocp.IsGradient.sum' Finset.univ fun i _ => Ocp.IsGradient.smul' (lam i) (by
      have := h1 i (by omega); unfold row at this; rw [dif_pos i.2] at this; exact this)
  have B : IsGradient (fun z => ∑ i : Fin q, lam (e + i) * (P.ineq i).fn z) (fun c => ∑ i : Fin q, lam (e + i) * jac (e + i) c) x :=
    Ocp.IsGradient.sum' Finset.univ fun i _ => Ocp.IsGradient.smul' (lam (e + i)) (by
      have := h1 (e + i) (by omega); unfold row at this
      rw [dif_neg (by omega)] at this
      simp only [Nat.add_sub_cancel_left, i.2, dif_pos] at this
      exact this)
  have C : IsGradient (fun z : Fin n → ℝ => ∑ i : Fin n, lam (e + q + i) * z i) (fun c => ∑ i : Fin n, lam (e + q + i) * if c = i then 1 else 0) x :=
    Ocp.IsGradient.sum' Finset.univ fun i _ => Ocp.IsGradient.smul' (lam (e + q + i)) (isGradient_coord i x)
  have T := Ocp.IsGradient.add' (Ocp.IsGradient.add' (Ocp.IsGradient.add' (Ocp.IsGradient.smul' 1 h0) A) B) C
  have e1 : (fun c => 1 * grad c + (∑ i : Fin e, lam i * jac i c) + (∑ i : Fin q, lam (e + i) * jac (e + i) c) +
      ∑ i : Fin n, lam (e + q + i) * if c = i then 1 else 0) = lagGradOf e q jac lam grad := by
    funext c
    unfold lagGradOf
    rw [sum_rows]
    simp only [mul_comm (lam _), ite_mul, one_mul, zero_mul, Finset.sum_ite_eq, Finset.mem_univ, if_true]
    ring
  rw [← e1]
  exact T

theorem AllDefinite.row (hP : AllDefinite P) {r : ℕ} (hr : r < e + q) : (row P r).Definite := by
  unfold Nlp.row
  by_cases h1 : r < e
  · rw [dif_pos h1]; exact hP.eq _
  · rw [dif_neg h1, dif_pos (by omega)]; exact hP.ineq _

theorem AllOk.row {x : Fin n → ℝ} (hP : AllOk P x) {r : ℕ} (hr : r < e + q) : (row P r).Ok x := by
  unfold Nlp.row
  by_cases h1 : r < e
  · rw [dif_pos h1]; exact hP.eq _
  · rw [dif_neg h1, dif_pos (by omega)]; exact hP.ineq _

/-- **C105.** `lagrangian_gradient` returns, after any calls, the gradient of the Lagrangian together with the gradient of the cost, the
constraints and their Jacobian. The number it returns as the Lagrangian is the cost alone. -/
theorem lagrangianGradient_correct (h : Reach P J o) (hP : AllDefinite P) (x : Fin n → ℝ) (hx : AllOk P x) (lam : ℕ → ℝ) (c0 : ℕ → ℝ)
    (jac0 : ℕ → Fin n → ℝ) :
    (lagrangianGradient P o x lam c0 jac0).1 = P.cost.fn x ∧ IsGradient (lagFn P lam 1) (lagrangianGradient P o x lam c0 jac0).2.1 x ∧
    IsGradient P.cost.fn (lagrangianGradient P o x lam c0 jac0).2.2.1 x ∧
    ∀ r < e + q, (lagrangianGradient P o x lam c0 jac0).2.2.2.1 r = (row P r).fn x ∧
      IsGradient (row P r).fn ((lagrangianGradient P o x lam c0 jac0).2.2.2.2.1 r) x := by
  have G := costGradient_correct h hP.cost.clean x hx.cost
  have h' : Reach P J (costGradient P o x).2.2 := .costGradient x h
  have R := fun r (hr : r < e + q) => constraintsLin_correct h' x c0 jac0 hr (hP.row hr) (hx.row hr)
  exact ⟨G.1, lagFn_gradient G.2 fun r hr => (R r hr).2.1, G.2, fun r hr => ⟨(R r hr).1, (R r hr).2.1⟩⟩

theorem lag_hess (h : Reach P J o) (x : Fin n → ℝ) (lam : ℕ → ℝ) (c0 : ℕ → ℝ)
    (jac0 : ℕ → Fin n → ℝ) (a : Fin e → Dual n (Dual n ℝ)) (b : Fin q → Dual n (Dual n ℝ)) (s : ℝ) :
    (lagrangianGradientHessian P o x lam c0 jac0 a b s).2.2.1 = fun r i => s * (costGradientHessian P o x).2.2.1 r i +
      (∑ k : Fin e, lam k * (((P.eq k).run (seed2 x) (a k)).der r).der i) + ∑ k : Fin q, lam (e + k) * (((P.ineq k).run (seed2 x) (b k)).der r).der i := by
  have hs : (setVar2 (constraintsLin P (costGradientHessian P o x).2.2.2 x c0 jac0).2.2 x).ad2Var = seed2 x :=
    (Reach.constraintsLin x c0 jac0 (Reach.costGradientHessian x h)).seeded.two x
  funext r i
  show (if s = 1 then (costGradientHessian P o x).2.2.1 else fun r i => s * (costGradientHessian P o x).2.2.1 r i) r i +
    (∑ k : Fin e, lam k * (((P.eq k).run (setVar2 (constraintsLin P (costGradientHessian P o x).2.2.2 x c0 jac0).2.2 x).ad2Var (a k)).der r).der i) +
    (∑ k : Fin q, lam (k + e) * (((P.ineq k).run (setVar2 (constraintsLin P (costGradientHessian P o x).2.2.2 x c0 jac0).2.2 x).ad2Var (b k)).der r).der i) = _
  rw [hs]
  simp only [Nat.add_comm _ e]
  by_cases h1 : s = 1
  · rw [if_pos h1, h1, one_mul]
  · rw [if_neg h1]

/-- **C106.** `lagrangian_gradient_hessian` returns, after any calls, the gradient of the Lagrangian and the second derivatives of the
Lagrangian with the cost scaled by `cost_scale`; the gradient is not scaled. -/
theorem lagrangianGradientHessian_correct (h : Reach P J o) (hP : AllDefinite P) (x : Fin n → ℝ) (hx : AllOk P x) (hp : AllNoPow P)
    (lam : ℕ → ℝ) (c0 : ℕ → ℝ) (jac0 : ℕ → Fin n → ℝ) (a : Fin e → Dual n (Dual n ℝ)) (b : Fin q → Dual n (Dual n ℝ)) (s : ℝ) :
    (lagrangianGradientHessian P o x lam c0 jac0 a b s).1 = P.cost.fn x ∧
    IsGradient (lagFn P lam 1) (lagrangianGradientHessian P o x lam c0 jac0 a b s).2.1 x ∧
    IsHessian (lagFn P lam s) (lagrangianGradientHessian P o x lam c0 jac0 a b s).2.2.1 x ∧
    IsGradient P.cost.fn (lagrangianGradientHessian P o x lam c0 jac0 a b s).2.2.2.1 x ∧
    ∀ r < e + q, (lagrangianGradientHessian P o x lam c0 jac0 a b s).2.2.2.2.1 r = (row P r).fn x ∧
      IsGradient (row P r).fn ((lagrangianGradientHessian P o x lam c0 jac0 a b s).2.2.2.2.2.1 r) x := by
  have G := costGradientHessian_correct h hP.cost x hx.cost hp.cost
  have h' : Reach P J (costGradientHessian P o x).2.2.2 := .costGradientHessian x h
  have R := fun r (hr : r < e + q) => constraintsLin_correct h' x c0 jac0 hr (hP.row hr) (hx.row hr)
  refine ⟨G.1, lagFn_gradient G.2.1 fun r hr => (R r hr).2.1, ?_, G.2.1, fun r hr => ⟨(R r hr).1, (R r hr).2.1⟩⟩
  rw [lag_hess h]
  have S : ∀ Q : Prog n, Q.Definite → Q.Ok x → Q.NoPow → ∀ d, IsHessian Q.fn (fun r i => ((Q.run (seed2 x) d).der r).der i) x := by
    intro Q hQ hx hp d
    have H := (Prog.second hQ.clean hx hp).2.2
    rw [hQ.indep _ d (lit 0)]
    have e1 : (fun r i => ((Q.run (seed2 x) (lit 0 : Dual n (Dual n ℝ))).der r).der i) = fun r i => ((Q.run (seed2 x) (lit 0 : Dual n (Dual n ℝ))).der i).der r := by
      funext r i; exact H.symm i r
    rw [e1]; exact H
  have A := Ocp.IsHessian.sum' (x := x) Finset.univ fun (i : Fin e) _ => Ocp.IsHessian.smul' (lam i) (S (P.eq i) (hP.eq i) (hx.eq i) (hp.eq i) (a i))
  have B := Ocp.IsHessian.sum' (x := x) Finset.univ fun (i : Fin q) _ => Ocp.IsHessian.smul' (lam (e + i)) (S (P.ineq i) (hP.ineq i) (hx.ineq i) (hp.ineq i) (b i))
  have C : IsHessian (fun z : Fin n → ℝ => ∑ i : Fin n, lam (e + q + i) * z i) (fun _ _ => 0) x :=
    Ocp.isHessian_affine (fun z => Ocp.IsGradient.sum' Finset.univ fun (i : Fin n) _ => Ocp.IsGradient.smul' (lam (e + q + i)) (isGradient_coord i z)) x
  have T := Ocp.IsHessian.add' (Ocp.IsHessian.add' (Ocp.IsHessian.add' (Ocp.IsHessian.smul' s G.2.2.1) A) B) C
  simp only [add_zero] at T
  exact T

/-- **C106 (negative).** With a cost scale other than one, gradient and second derivatives belong to different functions: the returned
gradient is not that of the scaled Lagrangian wherever the gradient of the cost is not zero. -/
theorem lagrangianGradientHessian_mismatch (h : Reach P J o) (hP : AllDefinite P) (x : Fin n → ℝ) (hx : AllOk P x) (hp : AllNoPow P)
    (lam : ℕ → ℝ) (c0 : ℕ → ℝ) (jac0 : ℕ → Fin n → ℝ) (a : Fin e → Dual n (Dual n ℝ)) (b : Fin q → Dual n (Dual n ℝ)) (s : ℝ) :
    IsGradient (lagFn P lam s) (lagrangianGradientHessian P o x lam c0 jac0 a b s).2.1 x ↔ s = 1 ∨ IsGradient P.cost.fn 0 x := by
  have M := lagrangianGradientHessian_correct h hP x hx hp lam c0 jac0 a b s
  set r := lagrangianGradientHessian P o x lam c0 jac0 a b s
  have e1 : lagFn P lam s = fun z => lagFn P lam 1 z + (s - 1) * P.cost.fn z := by
    funext z; unfold lagFn; ring
  have E : IsGradient (lagFn P lam s) (fun c => r.2.1 c + (s - 1) * r.2.2.2.1 c) x := by
    rw [e1]; exact Ocp.IsGradient.add' M.2.1 (Ocp.IsGradient.smul' (s - 1) M.2.2.2.1)
  constructor
  · intro hg
    by_cases hs : s = 1
    · exact .inl hs
    · refine .inr ?_
      have := gradient_unique hg E
      have z : r.2.2.2.1 = 0 := by
        funext c
        have hc := congrFun this c
        have : (s - 1) * r.2.2.2.1 c = 0 := by linarith
        exact (mul_eq_zero.1 this).resolve_left (sub_ne_zero.2 hs)
      rw [← z]; exact M.2.2.2.1
  · rintro (hs | h0)
    · rw [hs]; exact M.2.1
    · have z := gradient_unique M.2.2.2.1 h0
      have : (fun c => r.2.1 c + (s - 1) * r.2.2.2.1 c) = r.2.1 := by funext c; rw [z]; simp
      rw [this] at E; exact E

/-! ### Non-vacuity -/

/-- `min x₀² exp(x₁)` subject to `x₀ x₁ = 0` and `sin x₀` bounded. -/
noncomputable def exampleProblem : Problem 2 1 1 where
  cost := [.set exampleExpr2]
  eq := fun _ => [.set (.bin .mul (.var 0) (.var 1))]
  ineq := fun _ => [.set (.un .sin (.var 0)), .add (.var 1)]

/-- Non-vacuity: the hypotheses of C101-C106 hold for the example everywhere. -/
example (x : Fin 2 → ℝ) : AllDefinite exampleProblem ∧ AllNoPow exampleProblem ∧ AllOk exampleProblem x := by
  refine ⟨⟨trivial, fun _ => trivial, fun _ => trivial⟩, ⟨?_, fun _ => ?_, fun _ => ?_⟩, ⟨?_, fun _ => ?_, fun _ => ?_⟩⟩ <;>
    simp [exampleProblem, exampleExpr2, Prog.NoPow, Prog.Ok, Prog.exprs, Expr.NoPow, Expr.Ok, Unary.Ok, Binary.Ok]

/-- Non-vacuity: `out += x₀²` is an accumulating callback; called twice at `x₀ = 3` on zeroed memory the gradient is `6`, then `12`. -/
example : ∃ (P : Problem 1 0 0) (J : Obj 1 0 0), P.cost.Adds ∧ P.cost.Ok (fun _ => 3) ∧
    (costGradientHessian P (make J) fun _ => 3).2.1 0 = 6 ∧
    (costGradientHessian P (costGradientHessian P (make J) fun _ => 3).2.2.2 fun _ => 3).2.1 0 = 12 := by
  refine ⟨⟨[.add (.un .abs2 (.var 0))], Fin.elim0, Fin.elim0⟩,
    ⟨fun _ => lit 0, Fin.elim0, Fin.elim0, lit 0, fun _ => lit 0, lit 0⟩, fun s hs => ⟨_, List.mem_singleton.1 hs⟩, ?_, ?_, ?_⟩
  · simp [Prog.Ok, Prog.exprs, Expr.Ok, Unary.Ok]
  · norm_num [costGradientHessian, setVar2, make, Prog.run, Stmt.run, Expr.eval, Unary.run, Ops.add, Ops.mul, Ops.lit, Ops.abs2, Dual.chain, Dual.assignScalar]
  · norm_num [costGradientHessian, setVar2, make, Prog.run, Stmt.run, Expr.eval, Unary.run, Ops.add, Ops.mul, Ops.lit, Ops.abs2, Dual.chain, Dual.assignScalar]

end PolyMPC.Nlp
