import Verif.Lemmas.Storage
import Verif.Spec.Storage

/-!
# C170, C171: storage of dense matrices

Dense vectors and matrices of the solvers are fixed-size objects when they are small and heap-allocated objects when they are large. The
documentation presents this as internal. These theorems say for which problem sizes the dense solvers work.
-/

set_option linter.unusedSectionVars false

namespace PolyMPC.Storage
open Ocp (Dims)
open Spec (Usable FirstCallFails)

variable {V : Type} [DecidableEq V] {ty : V → Ty}

/-! ### The selector -/

/-- C170: the selected type is a fixed-size type exactly below the limit. -/
theorem select_fixed_iff (limit s r c : ℕ) : select limit s r c = .fixed r c ↔ r * c * s < limit := by
  refine ⟨fun h => ?_, select_fixed⟩
  by_contra hn
  unfold select at h
  rw [if_neg hn] at h
  split at h <;> cases h

/-- C170: Eigen accepts every selected type. -/
theorem select_accepted (limit s r c : ℕ) : (select limit s r c).Accepted limit s := by
  unfold select
  split
  · exact .inr (le_of_lt ‹_›)
  · split <;> trivial

/-- C170: a default-constructed object has its nominal size exactly if it is below the limit or has no rows and at most one column. -/
theorem select_initial_iff (limit s r c : ℕ) :
    (select limit s r c).initial = (r, c) ↔ r * c * s < limit ∨ (r = 0 ∧ c ≤ 1) := by
  unfold select
  split
  · simp [Ty.initial, *]
  · split
    · subst_vars
      simp_all [Ty.initial, eq_comm]
    · simp_all only [Ty.initial, Prod.mk.injEq, false_or]
      omega

/-! ### Executions from construction -/

/-- Every execution ends with the sizes `τ`. -/
def Leads (ty : V → Ty) (c : Cmd V) (σ τ : V → ℕ × ℕ) : Prop := ∀ r, Exec ty c σ r → r = some τ

theorem Leads.basic {b : Basic V} {σ τ : V → ℕ × ℕ} (h : b.run ty σ = some τ) : Leads ty (.basic b) σ τ := by
  intro r hr
  cases hr
  exact h

theorem Leads.seq {a b : Cmd V} {σ τ υ : V → ℕ × ℕ} (ha : Leads ty a σ τ) (hb : Leads ty b τ υ) : Leads ty (.seq a b) σ υ := by
  intro r hr
  cases hr with
  | seqFail h => exact absurd (ha _ h) (by simp)
  | seq h h' =>
    have := ha _ h
    simp only [Option.some.injEq] at this
    subst this
    exact hb _ h'

theorem runs_of_stable {ctor call : Cmd V} {τ : V → ℕ × ℕ} (hc : Leads ty ctor (fun v => (ty v).initial) τ) (hs : Stable ty call τ) :
    ∀ r, Exec ty (.seq ctor (.many call)) (fun v => (ty v).initial) r → r ≠ none := by
  intro r hr
  have : r = some τ := (Leads.seq hc (Stable.many hs : Leads ty _ _ _)) r hr
  simp [this]

theorem firstCallFails_of {P : (V → ℕ × ℕ) → Prop} {ctor call : Cmd V} (h0 : P fun v => (ty v).initial) (hk : Keeps ty P ctor)
    (hf : Fails ty P call) : FirstCallFails ty ctor call :=
  fun _ _ hσ hr => hf _ _ (hk _ _ h0 hσ) hr

theorem not_runs_of_fails {ctor call : Cmd V} (h : FirstCallFails ty ctor call) :
    ¬ ∀ r, Exec ty (.seq ctor (.many call)) (fun v => (ty v).initial) r → r ≠ none := by
  intro hr
  obtain ⟨r, h1⟩ := exec_exists ty ctor fun v => (ty v).initial
  cases r with
  | none => exact hr none (.seqFail h1) rfl
  | some σ =>
    obtain ⟨r, h2⟩ := exec_exists ty call σ
    have := h _ _ h1 h2
    subst this
    exact hr none (.seq h1 (.manyFail h2)) rfl

theorem compiles_turns {n : ℕ} {a : Cmd V} (h : a.Compiles ty) : (turns n a).Compiles ty := by
  unfold turns
  split
  · trivial
  · exact ⟨h, h⟩

/-- Reduce compilation to the commands `fill`. -/
macro "comp" : tactic => `(tactic| repeat' first
  | trivial | assumption | (refine compiles_upto fun _ => ?_) | refine compiles_turns ?_ | (refine And.intro ?_ ?_))

/-! ### ADMM -/

/-- C170: the class compiles exactly if the vector of all multipliers is below the limit. -/
theorem admm_compiles_iff (limit s N M n : ℕ) :
    ((admmCtor id limit s N M).Compiles (admmTy limit s N M) ∧ (admmSolve id limit s N M n (.lit N M)).Compiles (admmTy limit s N M)) ↔
      (N + M) * s < limit := by
  constructor
  · rintro ⟨h, _⟩
    simpa [admmDecl] using (isDynamic_select _ _ _ _).1 h.1
  · intro h
    have hr : (admmTy limit s N M .rho).isDynamic = false := (isDynamic_select _ _ _ _).2 (by simpa [admmDecl] using h)
    have hri : (admmTy limit s N M .rhoInv).isDynamic = false := (isDynamic_select _ _ _ _).2 (by simpa [admmDecl] using h)
    refine ⟨⟨hr, hri, trivial, ?_, trivial⟩, ?_⟩
    · split <;> trivial
    · simp only [admmSolve, admmRho, admmA, admmKkt, admmBody, admmRhs, admmProj, admmResiduals, parseBounds, Cmd.block, Cmd.Compiles]
      comp

theorem admmCtor_leads {limit s N M : ℕ} (h : (2 * N + M) * s < limit) :
    Leads (admmTy limit s N M) (admmCtor id limit s N M) (fun v => (admmTy limit s N M v).initial) (admmDecl N M) := by
  have hle : ∀ r ≤ 2 * N + M, select limit s r 1 = .fixed r 1 := fun r hr =>
    select_fixed (lt_of_le_of_lt (by simpa using Nat.mul_le_mul_right s hr) h)
  have hK : (admmTy limit s N M .K).admits (2 * N + M, 2 * N + M) = true := select_admits _ _ _ _
  have hA : (admmTy limit s N M .A).admits (N + M, N) = true := select_admits _ _ _ _
  have hvec : ∀ v, v ≠ AdmmVar.K → v ≠ .A → (admmTy limit s N M v).initial = admmDecl N M v := by
    intro v h1 h2
    cases v <;> first | exact absurd rfl h1 | exact absurd rfl h2 |
      (simp only [admmTy, admmDecl]; rw [hle _ (by omega)]; rfl)
  refine .seq (.basic rfl) (.seq (.basic rfl) (.seq (.basic (by simp [Basic.run, Exp.size, hK]; rfl)) ?_))
  split
  · refine .seq (.basic (by simp [Basic.run, Exp.size, hA]; rfl)) ?_
    intro r hr
    cases hr
    refine congrArg some (funext fun v => ?_)
    by_cases h1 : v = .A
    · subst h1; simp [admmDecl]
    · by_cases h2 : v = .K
      · subst h2; simp [admmDecl]
      · simp [Function.update_of_ne, h1, h2, hvec]
  · rename_i hd
    have hAi : (admmTy limit s N M .A).initial = (N + M, N) := by
      have := (isDynamic_select limit s (N + M) N).1 (by simpa [admmTy, admmDecl] using hd)
      unfold admmTy
      rw [select_fixed (by simpa [admmDecl] using this)]
      rfl
    refine .seq (τ := admmDecl N M) ?_ ?_
    · intro r hr
      cases hr
      refine congrArg some (funext fun v => ?_)
      by_cases h2 : v = .K
      · subst h2; simp [admmDecl]
      · by_cases h1 : v = .A
        · subst h1; simp [Function.update_of_ne, hAi, admmDecl]
        · simp [Function.update_of_ne, h2, hvec v h2 h1]
    · intro r hr
      cases hr
      rfl

/-- C170: if the vector of primal and dual variables is not below the limit, every call of `solve` fails. -/
theorem admm_fails {limit s N M n : ℕ} (hN : 0 < N) (hn : n ≠ 0) (h : limit ≤ (2 * N + M) * s) :
    FirstCallFails (admmTy limit s N M) (admmCtor id limit s N M) (admmSolve id limit s N M n (.lit N M)) :=
  firstCallFails_of (P := fun _ => True) trivial (fun _ _ _ _ => trivial)
    (admmSolve_fails (m := id) Function.injective_id (select_col (Nat.not_lt.2 h)) hN hn)

/-- C170: `ADMM` can be used exactly if its vector of primal and dual variables is below the limit. The matrices may be larger. -/
theorem admm_usable_iff {limit s N M n : ℕ} (hN : 0 < N) (hn : n ≠ 0) :
    Usable limit s (admmTy limit s N M) (admmCtor id limit s N M) (admmSolve id limit s N M n (.lit N M)) ↔ (2 * N + M) * s < limit := by
  constructor
  · intro h
    by_contra hl
    exact not_runs_of_fails (admm_fails hN hn (Nat.le_of_not_lt hl)) h.runs
  · intro h
    have hc := (admm_compiles_iff limit s N M n).2 (lt_of_le_of_lt (Nat.mul_le_mul_right s (by omega)) h)
    exact ⟨fun v => select_accepted _ _ _ _, hc.1, hc.2, runs_of_stable (admmCtor_leads h)
      (admmSolve_stable (m := id) (fun _ => rfl) (fun _ => rfl) h (QpArgs.lit_ok _ _ _) n)⟩

/-! ### boxADMM -/

/-- C170: the class compiles exactly if the two vectors of step sizes are below the limit. -/
theorem box_compiles_iff (limit s N M n : ℕ) :
    ((boxCtor id N M).Compiles (boxTy limit s N M) ∧ (boxSolve id limit s N M n (.lit N M)).Compiles (boxTy limit s N M)) ↔
      N * s < limit ∧ M * s < limit := by
  constructor
  · rintro ⟨h, h'⟩
    have h1 := (isDynamic_select _ _ _ _).1 h.1
    have h2 := (isDynamic_select _ _ _ _).1 h'.2.2.2.2.2.2.2.2.1.2.2.1
    exact ⟨by simpa [boxDecl] using h2, by simpa [boxDecl] using h1⟩
  · rintro ⟨h, h'⟩
    have hr : (boxTy limit s N M .rho).isDynamic = false := (isDynamic_select _ _ _ _).2 (by simpa [boxDecl] using h')
    have hri : (boxTy limit s N M .rhoInv).isDynamic = false := (isDynamic_select _ _ _ _).2 (by simpa [boxDecl] using h')
    have hs : (boxTy limit s N M .sigma).isDynamic = false := (isDynamic_select _ _ _ _).2 (by simpa [boxDecl] using h)
    refine ⟨⟨hr, hri, trivial, trivial⟩, ?_⟩
    simp only [boxSolve, boxRho, boxKkt, boxBody, boxRhs, boxResiduals, parseBounds, Cmd.block, Cmd.Compiles, id]
    comp

theorem boxCtor_leads {limit s N M : ℕ} (h : (N + M) * s < limit) :
    Leads (boxTy limit s N M) (boxCtor id N M) (fun v => (boxTy limit s N M v).initial) (boxDecl N M) := by
  have hle : ∀ r ≤ N + M, select limit s r 1 = .fixed r 1 := fun r hr =>
    select_fixed (lt_of_le_of_lt (by simpa using Nat.mul_le_mul_right s hr) h)
  have hK : (boxTy limit s N M .K).admits (N + M, N + M) = true := select_admits _ _ _ _
  have hvec : ∀ v, v ≠ BoxVar.K → (boxTy limit s N M v).initial = boxDecl N M v := by
    intro v h1
    cases v <;> first | exact absurd rfl h1 | (simp only [boxTy, boxDecl]; rw [hle _ (by omega)]; rfl)
  refine .seq (.basic rfl) (.seq (.basic rfl) (.seq (.basic (by simp [Basic.run, Exp.size, hK]; rfl)) ?_))
  intro r hr
  cases hr
  refine congrArg some (funext fun v => ?_)
  by_cases h2 : v = .K
  · subst h2; simp [boxDecl]
  · simp [Function.update_of_ne, h2, hvec]

/-- C170: if the vector of variables and multipliers is not below the limit, every call of `solve` fails. -/
theorem box_fails {limit s N M n : ℕ} (hN : 0 < N) (hn : n ≠ 0) (h : limit ≤ (N + M) * s) :
    FirstCallFails (boxTy limit s N M) (boxCtor id N M) (boxSolve id limit s N M n (.lit N M)) :=
  firstCallFails_of (P := fun _ => True) trivial (fun _ _ _ _ => trivial)
    (boxSolve_fails (m := id) Function.injective_id (select_col (Nat.not_lt.2 h)) hN hn)

/-- C170: `boxADMM` can be used exactly if its vector of variables and multipliers is below the limit. -/
theorem box_usable_iff {limit s N M n : ℕ} (hN : 0 < N) (hn : n ≠ 0) :
    Usable limit s (boxTy limit s N M) (boxCtor id N M) (boxSolve id limit s N M n (.lit N M)) ↔ (N + M) * s < limit := by
  constructor
  · intro h
    by_contra hl
    exact not_runs_of_fails (box_fails hN hn (Nat.le_of_not_lt hl)) h.runs
  · intro h
    have hc := (box_compiles_iff limit s N M n).2 ⟨lt_of_le_of_lt (Nat.mul_le_mul_right s (by omega)) h,
      lt_of_le_of_lt (Nat.mul_le_mul_right s (by omega)) h⟩
    exact ⟨fun v => select_accepted _ _ _ _, hc.1, hc.2, runs_of_stable (boxCtor_leads h)
      (boxSolve_stable (m := id) (fun _ => rfl) (fun _ => rfl) h (QpArgs.lit_ok _ _ _) n)⟩

/-- Doubles, the default limit, 5000 variables and 6000 constraints: both solvers work although all matrices are on the heap. -/
example : Usable 131072 8 (admmTy 131072 8 5000 6000) (admmCtor id 131072 8 5000 6000)
    (admmSolve id 131072 8 5000 6000 1000 (.lit 5000 6000)) := (admm_usable_iff (by decide) (by decide)).2 (by decide)

/-- With 6000 variables and 5000 constraints `ADMM` compiles and every solve fails; `boxADMM` works. -/
example : ((admmCtor id 131072 8 6000 5000).Compiles (admmTy 131072 8 6000 5000) ∧
      (admmSolve id 131072 8 6000 5000 1000 (.lit 6000 5000)).Compiles (admmTy 131072 8 6000 5000)) ∧
    FirstCallFails (admmTy 131072 8 6000 5000) (admmCtor id 131072 8 6000 5000)
      (admmSolve id 131072 8 6000 5000 1000 (.lit 6000 5000)) ∧
    Usable 131072 8 (boxTy 131072 8 6000 5000) (boxCtor id 6000 5000) (boxSolve id 131072 8 6000 5000 1000 (.lit 6000 5000)) :=
  ⟨(admm_compiles_iff _ _ _ _ _).2 (by decide), admm_fails (by decide) (by decide) (by decide),
    (box_usable_iff (by decide) (by decide)).2 (by decide)⟩

/-! ### SQP for optimal control problems -/

section Sqp
variable {limit s : ℕ} {d : Dims}
open SqpVar

theorem ocpCost_compiles (var : Exp V) : (ocpCost d var).Compiles ty := by
  simp only [ocpCost, readNode, Cmd.block, Cmd.Compiles]
  comp

theorem ocpEqualities_compiles (var c : Exp V) : (ocpEqualities d var c).Compiles ty := by
  simp only [ocpEqualities, diffProduct, readNode, Cmd.block, Cmd.Compiles]
  comp

theorem ocpInequalities_compiles (var g : Exp V) : (ocpInequalities d var g).Compiles ty := by
  simp only [ocpInequalities, readNode, Cmd.block]
  comp

theorem ocpLagGradTail_compiles (var lam grad cg g J : Exp V) : (ocpLagGradTail d limit s var lam grad cg g J).Compiles ty := by
  have h1 : ∀ v c J : Exp V, (ocpEqualitiesLin d v c J).Compiles ty := by
    intro v c J
    simp only [ocpEqualitiesLin, diffProduct, readNode, Cmd.block, Cmd.Compiles]
    comp
  have h2 : ∀ v c J : Exp V, (ocpInequalitiesLin d v c J).Compiles ty := by
    intro v c J
    unfold ocpInequalitiesLin
    split
    · trivial
    · simp only [readNode, Cmd.block, Cmd.Compiles]
      comp
  exact ⟨trivial, trivial, h1 _ _ _, trivial, trivial, h2 _ _ _, trivial, trivial, trivial, trivial⟩

theorem ocpLagGradient_compiles (var lam grad cg g J : Exp V) : (ocpLagGradient d limit s var lam grad cg g J).Compiles ty := by
  refine ⟨?_, ocpLagGradTail_compiles _ _ _ _ _ _, trivial⟩
  simp only [ocpCostGradient, readNode, addGrad, addGradMayer, Cmd.block, Cmd.Compiles]
  comp

theorem ocpLagGradientHessian_compiles (var lam grad hess cg g J : Exp V) :
    (ocpLagGradientHessian d limit s var lam grad hess cg g J).Compiles ty := by
  refine ⟨?_, ocpLagGradTail_compiles _ _ _ _ _ _, ⟨trivial, trivial⟩, ?_, ?_, trivial⟩
  · simp only [ocpCostGradientHessian, readNode, addGrad, addGradMayer, addHess, addHessMayer, readMayerU, Cmd.block, Cmd.Compiles]
    comp
  · comp
  · simp only [readNode, addHess, Cmd.block]
    comp

theorem sqpViolation_compiles (y : Exp SqpVar) {ty : SqpVar → Ty} : (sqpViolation d y).Compiles ty :=
  ⟨trivial, ocpEqualities_compiles _ _, trivial, ocpInequalities_compiles _ _, trivial, trivial, trivial, trivial, trivial⟩

theorem sqpStep_compiles {ty : SqpVar → Ty} : (sqpStep d).Compiles ty := by
  refine ⟨trivial, trivial, ⟨trivial, trivial, sqpViolation_compiles _, trivial, ocpCost_compiles _, trivial, trivial,
    ⟨trivial, trivial, ocpCost_compiles _, sqpViolation_compiles _, trivial⟩, trivial⟩, trivial, trivial, trivial, ⟨?_, ?_, trivial, trivial, trivial⟩,
    trivial⟩
  · split
    · trivial
    · exact ⟨trivial, ocpEqualities_compiles _ _, trivial⟩
  · split
    · trivial
    · exact ⟨trivial, ocpInequalities_compiles _ _, trivial, trivial, trivial⟩

/-- C171: the dense solver for an optimal control problem compiles exactly if its vectors of variables and of constraints are below the limit. -/
theorem sqp_compiles_iff (limit s n : ℕ) (d : Dims) :
    ((sqpCtor d).Compiles (sqpTy limit s d) ∧ (sqpSolve limit s d n).Compiles (sqpTy limit s d)) ↔
      d.VAR * s < limit ∧ (d.NEQ + d.NINEQ) * s < limit := by
  constructor
  · rintro ⟨h, _⟩
    have h1 := (isDynamic_select _ _ _ _).1 h.1.1
    have h2 := (isDynamic_select _ _ _ _).1 h.2.1
    exact ⟨by simpa [sqpDecl, boxDecl] using h2, by simpa [sqpDecl, boxDecl] using h1⟩
  · rintro ⟨hv, he⟩
    have hg : d.NINEQ * s < limit := lt_of_le_of_lt (Nat.mul_le_mul_right s (by omega)) he
    have f : ∀ v r, sqpDecl d v = (r, 1) → r * s < limit → (sqpTy limit s d v).isDynamic = false := by
      intro v r hd hr
      unfold sqpTy
      rw [hd]
      exact (isDynamic_select _ _ _ _).2 (by simpa using hr)
    have hs : (sqpTy limit s d (qp .sigma)).isDynamic = false := f _ _ rfl hv
    have hqp : (sqpSolveQp limit s d n).Compiles (sqpTy limit s d) := by
      refine ⟨?_, trivial, trivial, trivial⟩
      simp only [boxSolve, boxRho, boxKkt, boxBody, boxRhs, boxResiduals, parseBounds, Cmd.block, Cmd.Compiles]
      comp
    have hb : (sqpBounds d).Compiles (sqpTy limit s d) := ⟨trivial, trivial, trivial, trivial, trivial, trivial, trivial⟩
    refine ⟨⟨⟨f _ _ rfl he, f _ _ rfl he, trivial, trivial⟩, f _ _ rfl hv, f _ _ rfl hv, f _ _ rfl hg, f _ _ rfl hg, trivial, trivial, trivial⟩,
      ⟨⟨trivial, trivial, trivial⟩, trivial⟩, trivial, trivial, ocpLagGradientHessian_compiles _ _ _ _ _ _ _, hb, hqp, sqpStep_compiles,
      ⟨⟨trivial, ocpLagGradient_compiles _ _ _ _ _ _, ?_, trivial, trivial⟩, hb, hqp, sqpStep_compiles, trivial⟩, trivial⟩
    simp only [sqpBfgs, Cmd.block, Cmd.Compiles]
    comp

theorem two_le_VAR (hX : 0 < d.NX) (hS : 0 < d.S) (hN : 0 < d.N) : 2 ≤ d.NEQ ∧ d.NEQ ≤ d.VAR := by
  have h1 : 1 ≤ d.S * d.N := Nat.mul_pos hS hN
  have h2 : 1 * 2 ≤ d.NX * d.NN := Nat.mul_le_mul hX (by unfold Dims.NN; omega)
  unfold Dims.VAR Dims.NEQ Dims.VARX
  omega

theorem small_of (hX : 0 < d.NX) (hS : 0 < d.S) (hN : 0 < d.N) (h1 : d.VAR * d.VAR * s < limit)
    (h2 : (d.NEQ + d.NINEQ) * d.VAR * s < limit) : Small limit s d := by
  have h3 := two_le_VAR hX hS hN
  refine ⟨h1, h2, lt_of_le_of_lt (Nat.mul_le_mul_right s ?_) h2⟩
  exact Nat.add_le_mul (by omega) (by omega)

theorem sqpCtor_leads (h : Small limit s d) :
    Leads (sqpTy limit s d) (sqpCtor d) (fun v => (sqpTy limit s d v).initial) (sqpDecl d) := by
  have hK : (sqpTy limit s d (qp .K)).admits (sqpDecl d (qp .K)) = true := select_admits _ _ _ _
  have hu : Function.update (fun v => (sqpTy limit s d v).initial) (qp .K) (sqpDecl d (qp .K)) = sqpDecl d := by
    funext v
    by_cases hv : v = qp .K
    · subst hv; simp
    · rw [Function.update_of_ne hv]
      exact h.initial hv
  have hst : Stable (sqpTy limit s d) (.block [.fill lbx, .fill ubx, .fill lbg, .fill ubg, .read (.var x), .read (.var lam)]) (sqpDecl d) := by
    stab <;> rfl
  refine .seq (.seq (.basic rfl) (.seq (.basic rfl) (.seq (τ := sqpDecl d) (.basic ?_) Stable.skip))) hst
  rw [← hu]
  simp only [Basic.run, Exp.size, Option.bind_some]
  exact if_pos hK

/-- Sizes of an optimal control problem for which the dense solver works: the Hessian and the constraint Jacobian are below the limit, and
the segment the Mayer term is evaluated on lies inside the variables. -/
structure Fits (limit s : ℕ) (d : Dims) : Prop where
  hessian : d.VAR * d.VAR * s < limit
  jacobian : (d.NEQ + d.NINEQ) * d.VAR * s < limit
  mayer : d.NU = 0 ∨ (d.NU ≤ d.NX ∧ d.VARX + d.NX ≤ d.VAR)

/-- C171: a problem that compiles but does not fit fails in the first call of `solve`, with or without initial guesses, whatever the
functions, parameters and settings. -/
theorem sqp_fails {n : ℕ} (hX : 0 < d.NX) (hS : 0 < d.S) (hN : 0 < d.N) (hv : d.VAR * s < limit) (hf : ¬ Fits limit s d) :
    FirstCallFails (sqpTy limit s d) (sqpCtor d) (sqpSolve limit s d n) := by
  have h3 := two_le_VAR hX hS hN
  have hpure : ∀ v, v ≠ qp .K → (sqpCtor d).Untouched v := fun v hv =>
    ⟨⟨trivial, trivial, hv.symm, trivial⟩, trivial, trivial, trivial, trivial, trivial, trivial, trivial⟩
  by_cases h1 : d.VAR * d.VAR * s < limit
  · by_cases h2 : (d.NEQ + d.NINEQ) * d.VAR * s < limit
    · have hx : sqpTy limit s d x = .fixed d.VAR 1 := select_fixed (by simpa [sqpDecl] using hv)
      have hm : ¬ MayerOk d := fun hm => hf ⟨h1, h2, hm⟩
      refine firstCallFails_of (P := fun σ => (sqpTy limit s d x).admits (σ x) = true) ?_ (keeps_admits _ _)
        (sqpSolve_fails (keeps_admits _ _) (keeps_admits _ _) (keeps_admits _ _) (sqpLinearise_fails_mayer hx hm))
      show (sqpTy limit s d x).admits (sqpTy limit s d x).initial = true
      rw [hx]
      simp [Ty.admits, Ty.initial]
    · have hA : sqpTy limit s d A = .dynMat := select_mat h2 (by simp only [sqpDecl]; omega)
      have hP : ∀ c : Cmd SqpVar, c.Untouched A → Keeps (sqpTy limit s d) (fun σ => σ A = (0, 0)) c := fun c h => h.keeps
      refine firstCallFails_of (P := fun σ => σ A = (0, 0)) ?_ (hP _ (hpure _ (by simp)))
        (sqpSolve_fails (hP _ ⟨⟨nofun, nofun, trivial⟩, trivial⟩) (hP _ (by simp [Cmd.Untouched])) (hP _ (by simp [Cmd.Untouched]))
          (sqpLinearise_fails_A (by omega)))
      show (sqpTy limit s d A).initial = (0, 0)
      rw [hA]
      rfl
  · have hH : sqpTy limit s d H = .dynMat := select_mat h1 (by simp only [sqpDecl]; omega)
    have hP : ∀ c : Cmd SqpVar, c.Untouched H → Keeps (sqpTy limit s d) (fun σ => σ H = (0, 0)) c := fun c h => h.keeps
    refine firstCallFails_of (P := fun σ => σ H = (0, 0)) ?_ (hP _ (hpure _ (by simp)))
      (sqpSolve_fails (hP _ ⟨⟨nofun, nofun, trivial⟩, trivial⟩) (hP _ (by simp [Cmd.Untouched])) (hP _ (by simp [Cmd.Untouched]))
        (sqpLinearise_fails_H hS hX))
    show (sqpTy limit s d H).initial = (0, 0)
    rw [hH]
    rfl

/-- C171: the dense solver for an optimal control problem can be used exactly if the problem fits. -/
theorem sqp_usable_iff {n : ℕ} (hX : 0 < d.NX) (hS : 0 < d.S) (hN : 0 < d.N) :
    Usable limit s (sqpTy limit s d) (sqpCtor d) (sqpSolve limit s d n) ↔ Fits limit s d := by
  have h3 := two_le_VAR hX hS hN
  constructor
  · intro h
    have hc := (sqp_compiles_iff limit s n d).1 ⟨h.ctorCompiles, h.callCompiles⟩
    by_contra hf
    exact not_runs_of_fails (sqp_fails hX hS hN hc.1 hf) h.runs
  · intro h
    have hs := small_of hX hS hN h.hessian h.jacobian
    have hc := (sqp_compiles_iff limit s n d).2
      ⟨lt_of_le_of_lt (Nat.mul_le_mul_right s (by unfold dualSize; omega)) hs.dual,
        lt_of_le_of_lt (Nat.mul_le_mul_right s (by unfold dualSize; omega)) hs.dual⟩
    exact ⟨fun v => select_accepted _ _ _ _, hc.1, hc.2, runs_of_stable (sqpCtor_leads hs) (sqpSolve_stable hs hS h.mayer n)⟩

/-- C171: with doubles and Eigen's default limit, no dense optimal control problem with 128 or more variables can be used. -/
theorem sqp_dense_limit {n : ℕ} (hX : 0 < d.NX) (hS : 0 < d.S) (hN : 0 < d.N) (h : 128 ≤ d.VAR) :
    ¬ Usable 131072 8 (sqpTy 131072 8 d) (sqpCtor d) (sqpSolve 131072 8 d n) := by
  rw [sqp_usable_iff hX hS hN]
  intro hf
  have := Nat.mul_le_mul h h
  have := hf.hessian
  omega

/-- Three states, two controls, two segments of order five: usable. -/
example : Usable 131072 8 (sqpTy 131072 8 ⟨3, 2, 0, 1, 2, 5⟩) (sqpCtor ⟨3, 2, 0, 1, 2, 5⟩) (sqpSolve 131072 8 ⟨3, 2, 0, 1, 2, 5⟩ 1000) :=
  (sqp_usable_iff (by decide) (by decide) (by decide)).2 ⟨by decide, by decide, by decide⟩

/-- The same problem with five segments compiles, and its first solve fails. -/
example : ((sqpCtor ⟨3, 2, 0, 1, 5, 5⟩).Compiles (sqpTy 131072 8 ⟨3, 2, 0, 1, 5, 5⟩) ∧
      (sqpSolve 131072 8 ⟨3, 2, 0, 1, 5, 5⟩ 1000).Compiles (sqpTy 131072 8 ⟨3, 2, 0, 1, 5, 5⟩)) ∧
    FirstCallFails (sqpTy 131072 8 ⟨3, 2, 0, 1, 5, 5⟩) (sqpCtor ⟨3, 2, 0, 1, 5, 5⟩) (sqpSolve 131072 8 ⟨3, 2, 0, 1, 5, 5⟩ 1000) :=
  ⟨(sqp_compiles_iff _ _ _ _).2 (by decide), sqp_fails (by decide) (by decide) (by decide) (by decide) fun h => absurd h.hessian (by decide)⟩

/-- One state and two controls: the Mayer term reads the second control out of range, whatever the size. -/
example : FirstCallFails (sqpTy 131072 8 ⟨1, 2, 0, 0, 1, 2⟩) (sqpCtor ⟨1, 2, 0, 0, 1, 2⟩) (sqpSolve 131072 8 ⟨1, 2, 0, 0, 1, 2⟩ 1000) :=
  sqp_fails (by decide) (by decide) (by decide) (by decide) fun h => absurd h.mayer (by decide)
end Sqp

end PolyMPC.Storage
