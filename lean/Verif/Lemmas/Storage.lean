import Mathlib.Tactic.Ring
import Mathlib.Tactic.Linarith
import Verif.Model.StorageSqp

/-! # Executions of the size programs -/

set_option linter.unusedSectionVars false
set_option linter.unusedSimpArgs false
set_option linter.unnecessarySeqFocus false

namespace PolyMPC.Storage
open Ocp (Dims)

variable {V : Type} [DecidableEq V] {ty : V → Ty} {σ : V → ℕ × ℕ}

/-- No execution fails and none changes a size. -/
def Stable (ty : V → Ty) (c : Cmd V) (σ : V → ℕ × ℕ) : Prop := ∀ r, Exec ty c σ r → r = some σ

theorem Stable.basic {b : Basic V} (h : b.run ty σ = some σ) : Stable ty (.basic b) σ := by
  intro r hr
  cases hr
  exact h

theorem Stable.skip : Stable ty .skip σ := by
  intro r hr
  cases hr
  rfl

theorem Stable.seq {a b : Cmd V} (ha : Stable ty a σ) (hb : Stable ty b σ) : Stable ty (.seq a b) σ := by
  intro r hr
  cases hr with
  | seqFail h => exact absurd (ha _ h) (by simp)
  | seq h h' =>
    have := ha _ h
    simp only [Option.some.injEq] at this
    subst this
    exact hb _ h'

theorem Stable.alt {a b : Cmd V} (ha : Stable ty a σ) (hb : Stable ty b σ) : Stable ty (.alt a b) σ := by
  intro r hr
  cases hr with
  | altL h => exact ha _ h
  | altR h => exact hb _ h

theorem Stable.many {a : Cmd V} (ha : Stable ty a σ) : Stable ty (.many a) σ := by
  intro r hr
  generalize hc : Cmd.many a = c at hr
  generalize hs : σ = σ₀ at hr
  induction hr with
  | manyStop => simp
  | manyFail h _ => cases hc; subst hs; exact absurd (ha _ h) (by simp)
  | many h _ _ ih =>
    cases hc
    subst hs
    have := ha _ h
    simp only [Option.some.injEq] at this
    subst this
    exact ih rfl rfl
  | _ => cases hc

theorem Stable.upto {n : ℕ} {f : ℕ → Cmd V} (h : ∀ k < n, Stable ty (f k) σ) : Stable ty (.upto n f) σ := by
  induction n with
  | zero => exact .skip
  | succ n ih => exact .seq (ih fun k hk => h k (by omega)) (h n (by omega))

theorem Stable.nil : Stable ty (.block []) σ := .skip

theorem Stable.cons {a : Cmd V} {l : List (Cmd V)} (ha : Stable ty a σ) (hl : Stable ty (.block l) σ) :
    Stable ty (.block (a :: l)) σ := .seq ha hl

theorem Stable.turns {n : ℕ} {a : Cmd V} (ha : Stable ty a σ) : Stable ty (turns n a) σ := by
  unfold Storage.turns
  split
  · exact .skip
  · exact .seq ha (.many ha)

/-- Every command has an execution. -/
theorem exec_exists (ty : V → Ty) (c : Cmd V) : ∀ σ, ∃ r, Exec ty c σ r := by
  induction c with
  | basic b => exact fun σ => ⟨_, .basic b σ⟩
  | skip => exact fun σ => ⟨_, .skip σ⟩
  | seq a b iha ihb =>
    intro σ
    obtain ⟨r, hr⟩ := iha σ
    cases r with
    | none => exact ⟨none, .seqFail hr⟩
    | some σ' =>
      obtain ⟨r', hr'⟩ := ihb σ'
      exact ⟨r', .seq hr hr'⟩
  | alt a b iha _ =>
    intro σ
    obtain ⟨r, hr⟩ := iha σ
    exact ⟨r, .altL hr⟩
  | many a _ => exact fun σ => ⟨some σ, .manyStop⟩

/-! ### Failures -/

/-- Every execution from sizes with `P` fails. -/
def Fails (ty : V → Ty) (P : (V → ℕ × ℕ) → Prop) (c : Cmd V) : Prop := ∀ σ r, P σ → Exec ty c σ r → r = none

/-- Executions keep `P` unless they fail. -/
def Keeps (ty : V → Ty) (P : (V → ℕ × ℕ) → Prop) (c : Cmd V) : Prop := ∀ σ σ', P σ → Exec ty c σ (some σ') → P σ'

variable {P Q : (V → ℕ × ℕ) → Prop}

theorem Fails.seqLeft {a b : Cmd V} (h : Fails ty P a) : Fails ty P (.seq a b) := by
  intro σ r hP hr
  cases hr with
  | seqFail _ => rfl
  | seq ha _ => exact absurd (h _ _ hP ha) (by simp)

theorem Fails.seqRight {a b : Cmd V} (hk : Keeps ty P a) (h : Fails ty P b) : Fails ty P (.seq a b) := by
  intro σ r hP hr
  cases hr with
  | seqFail _ => rfl
  | seq ha hb => exact h _ _ (hk _ _ hP ha) hb

theorem Fails.alt {a b : Cmd V} (ha : Fails ty P a) (hb : Fails ty P b) : Fails ty P (.alt a b) := by
  intro σ r hP hr
  cases hr with
  | altL h => exact ha _ _ hP h
  | altR h => exact hb _ _ hP h

theorem Fails.upto {n k : ℕ} {f : ℕ → Cmd V} (hk : k < n) (hkeep : ∀ j < k, Keeps ty P (f j)) (h : Fails ty P (f k)) :
    Fails ty P (.upto n f) := by
  have keepAll : ∀ m ≤ k, Keeps ty P (.upto m f) := by
    intro m
    induction m with
    | zero =>
      intro _ σ σ' hP hr
      cases hr
      exact hP
    | succ m ih =>
      intro hm σ σ' hP hr
      cases hr with
      | seq ha hb => exact hkeep m (by omega) _ _ (ih (by omega) _ _ hP ha) hb
  have : ∀ j, Fails ty P (.upto (k + 1 + j) f) := by
    intro j
    induction j with
    | zero => exact .seqRight (keepAll k le_rfl) h
    | succ j ih => exact .seqLeft ih
  obtain ⟨j, rfl⟩ := Nat.exists_eq_add_of_lt hk
  simpa [Nat.add_right_comm] using this j

theorem Fails.turns {n : ℕ} (hn : n ≠ 0) {a : Cmd V} (h : Fails ty P a) : Fails ty P (turns n a) := by
  unfold Storage.turns
  rw [if_neg hn]
  exact .seqLeft h

theorem Fails.mono {c : Cmd V} (h : Fails ty Q c) (hPQ : ∀ σ, P σ → Q σ) : Fails ty P c :=
  fun σ r hP hr => h σ r (hPQ σ hP) hr

/-- The command does not assign to the object `v`. -/
def Cmd.Untouched (v : V) : Cmd V → Prop
  | .basic (.assign w _) => w ≠ v
  | .basic (.declare w) => w ≠ v
  | .basic _ => True
  | .skip => True
  | .seq a b => Untouched v a ∧ Untouched v b
  | .alt a b => Untouched v a ∧ Untouched v b
  | .many a => Untouched v a

theorem Basic.run_other {b : Basic V} {σ' : V → ℕ × ℕ} {v : V} (h : (Cmd.basic b).Untouched v) (hr : b.run ty σ = some σ') :
    σ' v = σ v := by
  cases b with
  | read e =>
    simp only [Basic.run, Option.bind_eq_some_iff, Option.some.injEq] at hr
    obtain ⟨_, _, rfl⟩ := hr
    rfl
  | write l e =>
    simp only [Basic.run, Option.bind_eq_some_iff, Option.ite_none_right_eq_some, Option.some.injEq] at hr
    obtain ⟨_, _, _, _, _, rfl⟩ := hr
    rfl
  | assign w e =>
    simp only [Basic.run, Option.bind_eq_some_iff, Option.ite_none_right_eq_some, Option.some.injEq] at hr
    obtain ⟨_, _, _, rfl⟩ := hr
    exact Function.update_of_ne (Ne.symm h) _ _
  | declare w =>
    simp only [Basic.run, Option.some.injEq] at hr
    subst hr
    exact Function.update_of_ne (Ne.symm h) _ _
  | fill w =>
    simp only [Basic.run, Option.some.injEq] at hr
    rw [hr]
  | pass e t =>
    simp only [Basic.run, Option.bind_eq_some_iff, Option.ite_none_right_eq_some, Option.some.injEq] at hr
    obtain ⟨_, _, _, rfl⟩ := hr
    rfl

theorem Cmd.Untouched.eq {c : Cmd V} {v : V} (h : c.Untouched v) {σ σ' : V → ℕ × ℕ} (hr : Exec ty c σ (some σ')) : σ' v = σ v := by
  generalize hs : some σ' = r at hr
  induction hr generalizing σ' with
  | basic b σ => exact Basic.run_other h hs.symm
  | skip σ => cases hs; rfl
  | seqFail _ _ => cases hs
  | seq _ _ iha ihb => rw [ihb h.2 hs, iha h.1 rfl]
  | altL _ ih => exact ih h.1 hs
  | altR _ ih => exact ih h.2 hs
  | manyStop => cases hs; rfl
  | manyFail _ _ => cases hs
  | many _ _ iha ihb => rw [ihb h hs, iha h rfl]

theorem Cmd.Untouched.keeps {c : Cmd V} {v : V} (h : c.Untouched v) {z : ℕ × ℕ} : Keeps ty (fun σ => σ v = z) c :=
  fun _ _ hP hr => (h.eq hr).trans hP

theorem untouched_upto {n : ℕ} {f : ℕ → Cmd V} {v : V} (h : ∀ k, (f k).Untouched v) : (Cmd.upto n f).Untouched v := by
  induction n with
  | zero => trivial
  | succ n ih => exact ⟨ih, h n⟩

theorem untouched_turns {n : ℕ} {a : Cmd V} {v : V} (h : a.Untouched v) : (turns n a).Untouched v := by
  unfold turns
  split
  · trivial
  · exact ⟨h, h⟩

/-! ### Compilation -/

theorem compiles_upto {n : ℕ} {f : ℕ → Cmd V} (h : ∀ k, (f k).Compiles ty) : (Cmd.upto n f).Compiles ty := by
  induction n with
  | zero => trivial
  | succ n ih => exact ⟨ih, h n⟩

/-! ### The selector -/

theorem select_admits (limit s r c : ℕ) : (select limit s r c).admits (r, c) = true := by
  unfold select
  split
  · simp [Ty.admits]
  · split
    · simp [Ty.admits, *]
    · rfl

theorem select_fixed {limit s r c : ℕ} (h : r * c * s < limit) : select limit s r c = .fixed r c := if_pos h

theorem select_col {limit s r : ℕ} (h : ¬ r * s < limit) : select limit s r 1 = .dynCol := by
  unfold select
  rw [if_neg (by simpa using h), if_pos rfl]

theorem select_mat {limit s r c : ℕ} (h : ¬ r * c * s < limit) (hc : c ≠ 1) : select limit s r c = .dynMat := by
  unfold select
  rw [if_neg h, if_neg hc]

theorem isDynamic_select (limit s r c : ℕ) : (select limit s r c).isDynamic = false ↔ r * c * s < limit := by
  unfold select
  split
  · simp [Ty.isDynamic, *]
  · split <;> simp_all [Ty.isDynamic]

/-! ### ADMM -/

/-- The arguments have their nominal sizes. -/
structure QpArgs.Ok (σ : V → ℕ × ℕ) (N M : ℕ) (q : QpArgs V) : Prop where
  H : q.H.size σ = some (N, N)
  h : q.h.size σ = some (N, 1)
  A : q.A.size σ = some (M, N)
  Alb : q.Alb.size σ = some (M, 1)
  Aub : q.Aub.size σ = some (M, 1)
  xl : q.xl.size σ = some (N, 1)
  xu : q.xu.size σ = some (N, 1)
  xg : q.xg.size σ = some (N, 1)
  yg : q.yg.size σ = some (N + M, 1)

theorem QpArgs.lit_ok (σ : V → ℕ × ℕ) (N M : ℕ) : (QpArgs.lit N M : QpArgs V).Ok σ N M := ⟨rfl, rfl, rfl, rfl, rfl, rfl, rfl, rfl, rfl⟩

/-- Reduce stability to the basic commands. -/
macro "stab" : tactic => `(tactic| repeat' first
  | assumption | exact Stable.nil | refine Stable.cons ?_ ?_ | exact Stable.skip | refine Stable.alt ?_ ?_ | refine Stable.many ?_
  | refine Stable.turns ?_ | (refine Stable.upto fun i hi => ?_) | refine Stable.basic ?_)

theorem parseBounds_stable {N M : ℕ} {ta tx : Ty} (hta : ta.rowsAtCompileTime ≤ M) (htx : tx.rowsAtCompileTime ≤ N) {q : QpArgs V}
    (hq : q.Ok σ N M) : Stable ty (parseBounds N M ta tx q) σ := by
  unfold parseBounds
  stab <;> simp [Basic.run, Exp.size, hq.Alb, hq.Aub, hq.xl, hq.xu, Option.bind_eq_some_iff] <;> omega

theorem rowsAtCompileTime_le (limit s r c : ℕ) : (select limit s r c).rowsAtCompileTime ≤ r := by
  unfold select
  split
  · exact le_rfl
  · split <;> exact Nat.zero_le _

section Admm
variable {m : AdmmVar → V} {limit s N M : ℕ} {q : QpArgs V}

theorem admmRho_stable (hσ : ∀ v, σ (m v) = admmDecl N M v) (hty : ∀ v, ty (m v) = admmTy limit s N M v) :
    Stable ty (admmRho m limit s N M) σ := by
  have hri : (ty (m .rhoInv)).admits (N + M, 1) = true := by rw [hty]; exact select_admits _ _ _ _
  have h1 := rowsAtCompileTime_le limit s M 1
  have h2 := rowsAtCompileTime_le limit s N 1
  unfold admmRho
  stab <;> simp [Basic.run, Exp.size, hσ, admmDecl, Option.bind_eq_some_iff, hri] <;> omega

theorem admmSolve_stable (hσ : ∀ v, σ (m v) = admmDecl N M v) (hty : ∀ v, ty (m v) = admmTy limit s N M v)
    (hv : (2 * N + M) * s < limit) (hq : q.Ok σ N M) (n : ℕ) : Stable ty (admmSolve m limit s N M n q) σ := by
  have hadm : ∀ v, (ty (m v)).admits (admmDecl N M v) = true := fun v => by rw [hty]; exact select_admits _ _ _ _
  have hadmx := hadm .x
  have hadmxt := hadm .xt
  have hadmy := hadm .y
  have hadmz := hadm .z
  have hadmzt := hadm .zt
  have hadmzp := hadm .zp
  have hadmxtn := hadm .xtn
  have hfix : select limit s (2 * N + M) 1 = .fixed (2 * N + M) 1 := select_fixed (by simpa using hv)
  have hirhs : (ty (m .rhs)).initial = (2 * N + M, 1) := by rw [hty]; simp [admmTy, admmDecl, hfix, Ty.initial]
  have hixtn : (ty (m .xtn)).initial = (2 * N + M, 1) := by rw [hty]; simp [admmTy, admmDecl, hfix, Ty.initial]
  have hA : (admmTy limit s N M .A).admits (N + M, N) = true := select_admits _ _ _ _
  have hR : (admmTy limit s N M .rhs).admits (2 * N + M, 1) = true := select_admits _ _ _ _
  have hZ : (admmTy limit s N M .z).admits (N + M, 1) = true := select_admits _ _ _ _
  have hMM : (select limit s M 1).admits (M, 1) = true := select_admits _ _ _ _
  have hrho : Stable ty (admmRho m limit s N M) σ := admmRho_stable hσ hty
  have hpb : Stable ty (parseBounds N M (select limit s M 1) (select limit s N 1) q) σ :=
    parseBounds_stable (rowsAtCompileTime_le _ _ _ _) (rowsAtCompileTime_le _ _ _ _) hq
  simp only [admmDecl] at hadmx hadmxt hadmy hadmz hadmzt hadmzp hadmxtn
  simp only [admmSolve, admmA, admmKkt, admmBody, admmRhs, admmProj, admmResiduals]
  stab
  all_goals
    simp [Basic.run, Exp.size, hσ, admmDecl, hq.H, hq.h, hq.A, hq.Alb, hq.Aub, hq.xl, hq.xu, hq.xg, hq.yg, Option.bind_eq_some_iff,
      hirhs, hixtn, hA, hR, hZ, hMM, hadmx, hadmxt, hadmy, hadmz, hadmzt, hadmzp, hadmxtn]
  all_goals omega
end Admm

section Box
variable {m : BoxVar → V} {limit s N M : ℕ} {q : QpArgs V}

theorem boxRho_stable (hσ : ∀ v, σ (m v) = boxDecl N M v) (hty : ∀ v, ty (m v) = boxTy limit s N M v) :
    Stable ty (boxRho m limit s N M) σ := by
  have hri : (ty (m .rhoInv)).admits (M, 1) = true := by rw [hty]; exact select_admits _ _ _ _
  have hrb : (ty (m .rhoBoxInv)).admits (N, 1) = true := by rw [hty]; exact select_admits _ _ _ _
  have h1 := rowsAtCompileTime_le limit s M 1
  have h2 := rowsAtCompileTime_le limit s N 1
  unfold boxRho
  stab <;> simp [Basic.run, Exp.size, hσ, boxDecl, Option.bind_eq_some_iff, hri, hrb] <;> omega

theorem boxSolve_stable (hσ : ∀ v, σ (m v) = boxDecl N M v) (hty : ∀ v, ty (m v) = boxTy limit s N M v)
    (hv : (N + M) * s < limit) (hq : q.Ok σ N M) (n : ℕ) : Stable ty (boxSolve m limit s N M n q) σ := by
  have hadm : ∀ v, (ty (m v)).admits (boxDecl N M v) = true := fun v => by rw [hty]; exact select_admits _ _ _ _
  have hadmx := hadm .x
  have hadmxt := hadm .xt
  have hadmq := hadm .q
  have hadmy := hadm .y
  have hadmz := hadm .z
  have hadmzt := hadm .zt
  have hadmzp := hadm .zp
  have hadmrb := hadm .rhoBoxPrev
  have hadmxtn := hadm .xtn
  have hfix : select limit s (N + M) 1 = .fixed (N + M) 1 := select_fixed (by simpa using hv)
  have hfixN : select limit s N 1 = .fixed N 1 :=
    select_fixed (lt_of_le_of_lt (by simpa using Nat.mul_le_mul_right s (Nat.le_add_right N M)) hv)
  have hirhs : (ty (m .rhs)).initial = (N + M, 1) := by rw [hty]; simp [boxTy, boxDecl, hfix, Ty.initial]
  have hixtn : (ty (m .xtn)).initial = (N + M, 1) := by rw [hty]; simp [boxTy, boxDecl, hfix, Ty.initial]
  have hisig : (ty (m .sigma)).initial = (N, 1) := by rw [hty]; simp [boxTy, boxDecl, hfixN, Ty.initial]
  have hR : (boxTy limit s N M .rhs).admits (N + M, 1) = true := select_admits _ _ _ _
  have hrho : Stable ty (boxRho m limit s N M) σ := boxRho_stable hσ hty
  have hpb : Stable ty (parseBounds N M (select limit s M 1) (select limit s N 1) q) σ :=
    parseBounds_stable (rowsAtCompileTime_le _ _ _ _) (rowsAtCompileTime_le _ _ _ _) hq
  simp only [boxDecl] at hadmx hadmxt hadmq hadmy hadmz hadmzt hadmzp hadmrb hadmxtn
  simp only [boxSolve, boxKkt, boxBody, boxRhs, boxResiduals]
  stab
  all_goals
    simp [Basic.run, Exp.size, hσ, boxDecl, hq.H, hq.h, hq.A, hq.Alb, hq.Aub, hq.xl, hq.xu, hq.xg, hq.yg, Option.bind_eq_some_iff,
      hirhs, hixtn, hisig, hR, hadmx, hadmxt, hadmq, hadmy, hadmz, hadmzt, hadmzp, hadmrb, hadmxtn]
end Box

/-! ### The transcription -/

theorem dims_eqs (d : Dims) : d.VAR = d.VARX + d.VARU + d.NP ∧ d.VARX = d.NX * d.NN ∧ d.VARU = d.NU * d.NN ∧ d.NEQ = d.VARX ∧
    d.NINEQ = d.NG * d.NN ∧ d.M = d.NX + d.NU + d.NP := ⟨rfl, rfl, rfl, rfl, rfl, rfl⟩

theorem node_le {d : Dims} {t : ℕ} (ht : t < d.NN) (n : ℕ) : t * n + n ≤ n * d.NN := by
  have : (t + 1) * n ≤ d.NN * n := Nat.mul_le_mul_right _ ht
  linarith [Nat.mul_comm n d.NN, Nat.succ_mul t n]

theorem node_lt {d : Dims} {s k : ℕ} (hs : s < d.S) (hk : k < d.N + 1) : k + s * d.N < d.NN := by
  have : (s + 1) * d.N ≤ d.S * d.N := Nat.mul_le_mul_right _ hs
  unfold Dims.NN
  linarith [Nat.succ_mul s d.N]

section Ocp
variable {d : Dims} {var grad hess c g J lam costGrad : Exp V}

theorem readNode_stable (hv : var.size σ = some (d.VAR, 1)) {t : ℕ} (ht : t < d.NN) : Stable ty (readNode d var t) σ := by
  have h1 := node_le ht d.NX
  have h2 := node_le ht d.NU
  unfold readNode
  stab <;> simp [Basic.run, Exp.size, hv, Option.bind_eq_some_iff] <;> (have := dims_eqs d; omega)

theorem readP_stable (hv : var.size σ = some (d.VAR, 1)) : Stable ty (.read (.seg var (d.VARX + d.VARU) d.NP)) σ := by
  stab
  simp [Basic.run, Exp.size, hv, Dims.VAR]

theorem ocpCost_stable (hv : var.size σ = some (d.VAR, 1)) : Stable ty (ocpCost d var) σ := by
  have h1 := node_le (d := d) (t := 0) (by unfold Dims.NN; omega) d.NX
  have h2 := node_le (d := d) (t := 0) (by unfold Dims.NN; omega) d.NU
  refine .cons (.upto fun s hs => .upto fun k hk => .cons (readNode_stable hv (node_lt hs hk)) (.cons (readP_stable hv) (.cons ?_ .nil)))
    (.cons ?_ (.cons ?_ (.cons (readP_stable hv) .nil)))
  all_goals stab <;> simp [Basic.run, Exp.size, hv, Option.bind_eq_some_iff] <;> (have := dims_eqs d; omega)

theorem addGrad_stable (hg : grad.size σ = some (d.VAR, 1)) {t : ℕ} (ht : t < d.NN) : Stable ty (addGrad d grad t) σ := by
  have h1 := node_le ht d.NX
  have h2 := node_le ht d.NU
  unfold addGrad
  stab <;> simp [Basic.run, Exp.size, hg, Option.bind_eq_some_iff] <;> (have := dims_eqs d; omega)

theorem addGradMayer_stable (hg : grad.size σ = some (d.VAR, 1)) : Stable ty (addGradMayer d grad) σ := by
  have h1 := node_le (d := d) (t := 0) (by unfold Dims.NN; omega) d.NX
  have h2 := node_le (d := d) (t := 0) (by unfold Dims.NN; omega) d.NU
  unfold addGradMayer
  stab <;> simp [Basic.run, Exp.size, hg, Option.bind_eq_some_iff] <;> (have := dims_eqs d; omega)

theorem addHess_stable (hh : hess.size σ = some (d.VAR, d.VAR)) {t : ℕ} (ht : t < d.NN) : Stable ty (addHess d hess t) σ := by
  have h1 := node_le ht d.NX
  have h2 := node_le ht d.NU
  unfold addHess
  stab <;> simp [Basic.run, Exp.size, hh, Option.bind_eq_some_iff] <;> (have := dims_eqs d; omega)

theorem addHessMayer_stable (hh : hess.size σ = some (d.VAR, d.VAR)) : Stable ty (addHessMayer d hess) σ := by
  have h1 := node_le (d := d) (t := 0) (by unfold Dims.NN; omega) d.NX
  have h2 := node_le (d := d) (t := 0) (by unfold Dims.NN; omega) d.NU
  unfold addHessMayer
  stab <;> simp [Basic.run, Exp.size, hh, Option.bind_eq_some_iff] <;> (have := dims_eqs d; omega)

theorem ocpCostGradient_stable (hv : var.size σ = some (d.VAR, 1)) (hg : grad.size σ = some (d.VAR, 1)) :
    Stable ty (ocpCostGradient d var grad) σ := by
  have h1 := node_le (d := d) (t := 0) (by unfold Dims.NN; omega) d.NX
  have h2 := node_le (d := d) (t := 0) (by unfold Dims.NN; omega) d.NU
  refine .cons ?_ (.cons (readP_stable hv) (.cons (.upto fun s hs => .upto fun k hk => .cons (readNode_stable hv (node_lt hs hk))
    (.cons ?_ (.cons (addGrad_stable hg (node_lt hs hk)) .nil))) (.cons ?_ (.cons ?_ (.cons (addGradMayer_stable hg) .nil)))))
  all_goals stab <;> simp [Basic.run, Exp.size, hv, hg, Option.bind_eq_some_iff] <;> (have := dims_eqs d; omega)

/-- The Mayer term's reads lie inside the vector of variables. -/
def MayerOk (d : Dims) : Prop := d.NU = 0 ∨ (d.NU ≤ d.NX ∧ d.VARX + d.NX ≤ d.VAR)

theorem readMayerU_stable (hv : var.size σ = some (d.VAR, 1)) (hm : MayerOk d) : Stable ty (readMayerU d var) σ := by
  unfold readMayerU MayerOk at *
  stab <;> simp [Basic.run, Exp.size, hv, Option.bind_eq_some_iff] <;> (have := dims_eqs d; omega)

theorem readPi_stable (hv : var.size σ = some (d.VAR, 1)) : Stable ty (.upto d.NP fun i => .read (.at' (.tail var d.NP) i)) σ := by
  stab <;> simp [Basic.run, Exp.size, hv, Option.bind_eq_some_iff] <;> (have := dims_eqs d; omega)

theorem ocpCostGradientHessian_stable (hv : var.size σ = some (d.VAR, 1)) (hg : grad.size σ = some (d.VAR, 1))
    (hh : hess.size σ = some (d.VAR, d.VAR)) (hm : MayerOk d) : Stable ty (ocpCostGradientHessian d var grad hess) σ := by
  have h1 := node_le (d := d) (t := 0) (by unfold Dims.NN; omega) d.NX
  refine .cons ?_ (.cons ?_ (.cons (readPi_stable hv) (.cons (.upto fun s hs => .upto fun k hk => .cons (readNode_stable hv (node_lt hs hk))
    (.cons ?_ (.cons (addGrad_stable hg (node_lt hs hk)) (.cons (addHess_stable hh (node_lt hs hk)) .nil)))) (.cons ?_
    (.cons (readMayerU_stable hv hm) (.cons (addGradMayer_stable hg) (.cons (addHessMayer_stable hh) .nil)))))))
  all_goals stab <;> simp [Basic.run, Exp.size, hv, hg, hh, Option.bind_eq_some_iff] <;> (have := dims_eqs d; omega)

theorem diffProduct_stable (hv : var.size σ = some (d.VAR, 1)) : Stable ty (diffProduct d var) σ := by
  refine .cons ?_ (.cons (.upto fun i hi => ?_) .nil)
  · stab <;> simp [Basic.run, Exp.size, hv, Option.bind_eq_some_iff] <;> (have := dims_eqs d; omega)
  · have := node_lt (d := d) hi (Nat.lt_succ_self d.N)
    stab <;> simp [Basic.run, Exp.size, Option.bind_eq_some_iff]
    omega

theorem ocpEqualities_stable (hv : var.size σ = some (d.VAR, 1)) (hc : c.size σ = some (d.NEQ, 1)) :
    Stable ty (ocpEqualities d var c) σ := by
  refine .cons (diffProduct_stable hv) (.cons (.upto fun t ht => .cons (readNode_stable hv ht) (.cons (readP_stable hv) (.cons ?_ .nil))) .nil)
  have h1 := node_le ht d.NX
  stab <;> simp [Basic.run, Exp.size, hc, Option.bind_eq_some_iff] <;> (have := dims_eqs d; omega)

theorem ocpInequalities_stable (hv : var.size σ = some (d.VAR, 1)) (hg : g.size σ = some (d.NINEQ, 1)) :
    Stable ty (ocpInequalities d var g) σ := by
  refine .upto fun t ht => .cons (readNode_stable hv ht) (.cons (readP_stable hv) (.cons ?_ .nil))
  have h1 := node_le ht d.NG
  stab <;> simp [Basic.run, Exp.size, hg, Option.bind_eq_some_iff] <;> (have := dims_eqs d; omega)

theorem ocpEqualitiesLin_stable (hS : 0 < d.S) (hv : var.size σ = some (d.VAR, 1)) (hc : c.size σ = some (d.NEQ, 1))
    (hJ : J.size σ = some (d.NEQ, d.VAR)) : Stable ty (ocpEqualitiesLin d var c J) σ := by
  refine .cons ?_ (.cons (diffProduct_stable hv) (.cons (.upto fun s hs => .upto fun i hi => .upto fun j hj => ?_) (.cons ?_
    (.cons (readP_stable hv) (.cons (.upto fun t ht => .cons (readNode_stable hv ht) ?_) .nil)))))
  · stab <;> simp [Basic.run, Exp.size, hJ, Option.bind_eq_some_iff]
  · have h1 := node_le (node_lt hs (show i < d.N + 1 by omega)) d.NX
    have h2 := node_le (node_lt hs hj) d.NX
    have e1 : (i + s * d.N) * d.NX = s * d.N * d.NX + i * d.NX := by ring
    have e2 : (j + s * d.N) * d.NX = s * d.N * d.NX + j * d.NX := by ring
    rw [e1] at h1
    rw [e2] at h2
    stab <;> simp [Basic.run, Exp.size, hJ, Option.bind_eq_some_iff] <;> (have := dims_eqs d; omega)
  · have h1 := node_le (d := d) (t := 0) (by unfold Dims.NN; omega) d.NX
    have h2 : d.NX * (d.N + 1) ≤ d.NX * d.NN := by
      refine Nat.mul_le_mul_left _ ?_
      have := Nat.mul_le_mul_right d.N hS
      unfold Dims.NN
      omega
    stab <;> simp [Basic.run, Exp.size, hJ, Option.bind_eq_some_iff] <;> (have := dims_eqs d; omega)
  · have h1 := node_le ht d.NX
    have h2 := node_le ht d.NU
    stab <;> simp [Basic.run, Exp.size, hJ, hc, Option.bind_eq_some_iff] <;> (have := dims_eqs d; omega)

theorem ocpInequalitiesLin_stable (hv : var.size σ = some (d.VAR, 1)) (hg : g.size σ = some (d.NINEQ, 1))
    (hJ : J.size σ = some (d.NINEQ, d.VAR)) : Stable ty (ocpInequalitiesLin d var g J) σ := by
  unfold ocpInequalitiesLin
  split
  · exact .skip
  · refine .cons ?_ (.cons (readP_stable hv) (.cons (.upto fun t ht => .cons (readNode_stable hv ht) ?_) .nil))
    · stab <;> simp [Basic.run, Exp.size, hJ, Option.bind_eq_some_iff]
    · have h1 := node_le ht d.NX
      have h2 := node_le ht d.NU
      have h3 := node_le ht d.NG
      stab <;> simp [Basic.run, Exp.size, hJ, hg, Option.bind_eq_some_iff] <;> (have := dims_eqs d; omega)

theorem ocpLagGradTail_stable {limit s : ℕ} (hS : 0 < d.S) (hv : var.size σ = some (d.VAR, 1)) (hl : lam.size σ = some (dualSize d, 1))
    (hgr : grad.size σ = some (d.VAR, 1)) (hcg : costGrad.size σ = some (d.VAR, 1)) (hg : g.size σ = some (d.NEQ + d.NINEQ, 1))
    (hJ : J.size σ = some (d.NEQ + d.NINEQ, d.VAR)) : Stable ty (ocpLagGradTail d limit s var lam grad costGrad g J) σ := by
  have a1 := select_admits limit s d.NEQ 1
  have a2 := select_admits limit s d.NEQ d.VAR
  have a3 := select_admits limit s d.NINEQ 1
  have a4 := select_admits limit s d.NINEQ d.VAR
  refine .cons ?_ (.cons ?_ (.cons (ocpEqualitiesLin_stable hS hv ?_ ?_) (.cons ?_ (.cons ?_ (.cons (ocpInequalitiesLin_stable hv ?_ ?_) ?_)))))
  all_goals try stab
  all_goals simp [Basic.run, Exp.size, hJ, hg, hl, hgr, hcg, Option.bind_eq_some_iff, a1, a2, a3, a4, dualSize]

theorem ocpLagGradient_stable {limit s : ℕ} (hS : 0 < d.S) (hv : var.size σ = some (d.VAR, 1)) (hl : lam.size σ = some (dualSize d, 1))
    (hgr : grad.size σ = some (d.VAR, 1)) (hcg : costGrad.size σ = some (d.VAR, 1)) (hg : g.size σ = some (d.NEQ + d.NINEQ, 1))
    (hJ : J.size σ = some (d.NEQ + d.NINEQ, d.VAR)) : Stable ty (ocpLagGradient d limit s var lam grad costGrad g J) σ :=
  .cons (ocpCostGradient_stable hv hcg) (.cons (ocpLagGradTail_stable hS hv hl hgr hcg hg hJ) .nil)

theorem ocpLagGradientHessian_stable {limit s : ℕ} (hS : 0 < d.S) (hv : var.size σ = some (d.VAR, 1))
    (hl : lam.size σ = some (dualSize d, 1)) (hgr : grad.size σ = some (d.VAR, 1)) (hh : hess.size σ = some (d.VAR, d.VAR))
    (hcg : costGrad.size σ = some (d.VAR, 1)) (hg : g.size σ = some (d.NEQ + d.NINEQ, 1))
    (hJ : J.size σ = some (d.NEQ + d.NINEQ, d.VAR)) (hm : MayerOk d) :
    Stable ty (ocpLagGradientHessian d limit s var lam grad hess costGrad g J) σ := by
  refine .cons (ocpCostGradientHessian_stable hv hcg hh hm) (.cons (ocpLagGradTail_stable hS hv hl hgr hcg hg hJ) (.cons ?_
    (.cons (readPi_stable hv) (.cons (.upto fun k hk => .cons (readNode_stable hv hk) (.cons (.upto fun n hn => ?_)
    (.cons (.upto fun n hn => ?_) (.cons (addHess_stable hh hk) .nil)))) .nil))))
  · stab <;> simp [Basic.run, hh]
  · have := node_le hk d.NX
    stab <;> simp [Basic.run, Exp.size, hl, Option.bind_eq_some_iff, dualSize] <;> (have := dims_eqs d; omega)
  · have := node_le hk d.NG
    stab <;> simp [Basic.run, Exp.size, hl, Option.bind_eq_some_iff, dualSize] <;> (have := dims_eqs d; omega)
end Ocp

/-! ### SQP -/

section Sqp
variable {limit s : ℕ} {d : Dims}
open SqpVar

/-- All objects but the KKT matrix of the QP solver are small. -/
structure Small (limit s : ℕ) (d : Dims) : Prop where
  H : d.VAR * d.VAR * s < limit
  A : (d.NEQ + d.NINEQ) * d.VAR * s < limit
  dual : dualSize d * s < limit

theorem Small.fixed (h : Small limit s d) {v : SqpVar} (hv : v ≠ qp .K) : sqpTy limit s d v = .fixed (sqpDecl d v).1 (sqpDecl d v).2 := by
  have hle : ∀ r, r ≤ dualSize d → r * 1 * s < limit := fun r hr =>
    lt_of_le_of_lt (by simpa using Nat.mul_le_mul_right s hr) h.dual
  refine select_fixed ?_
  unfold dualSize at hle
  cases v with
  | H => exact h.H
  | A => exact h.A
  | qp w => cases w <;> first | exact absurd rfl hv | (refine hle _ ?_; simp only [sqpDecl, boxDecl]; omega)
  | _ => refine hle _ ?_; simp only [sqpDecl, dualSize]; omega

theorem Small.initial (h : Small limit s d) {v : SqpVar} (hv : v ≠ qp .K) : (sqpTy limit s d v).initial = sqpDecl d v := by
  rw [h.fixed hv]
  rfl

theorem declare_stable (h : Small limit s d) {v : SqpVar} (hv : v ≠ qp .K) : Stable (sqpTy limit s d) (.declare v) (sqpDecl d) := by
  refine .basic ?_
  simp [Basic.run, h.initial hv]

theorem assign_stable {v : SqpVar} {e : Exp SqpVar} (he : e.size (sqpDecl d) = some (sqpDecl d v)) :
    Stable (sqpTy limit s d) (.assign v e) (sqpDecl d) := by
  refine .basic ?_
  have : (sqpTy limit s d v).admits (sqpDecl d v) = true := select_admits _ _ _ _
  simp [Basic.run, he, this]

theorem sqpViolation_stable (h : Small limit s d) {y : Exp SqpVar} (hy : y.size (sqpDecl d) = some (d.VAR, 1)) :
    Stable (sqpTy limit s d) (sqpViolation d y) (sqpDecl d) := by
  refine .cons (declare_stable h (by simp)) (.cons (ocpEqualities_stable hy rfl) (.cons (declare_stable h (by simp))
    (.cons (ocpInequalities_stable hy rfl) ?_)))
  stab <;> simp [Basic.run, Exp.size, hy, sqpDecl]

theorem sqpMaxViolation_stable (h : Small limit s d) {y : Exp SqpVar} (hy : y.size (sqpDecl d) = some (d.VAR, 1)) :
    Stable (sqpTy limit s d) (sqpMaxViolation d y) (sqpDecl d) := by
  refine .cons ?_ (.cons ?_ ?_)
  · split
    · exact .skip
    · exact .cons (declare_stable h (by simp)) (.cons (ocpEqualities_stable hy rfl) .nil)
  · split
    · exact .skip
    · refine .cons (declare_stable h (by simp)) (.cons (ocpInequalities_stable hy rfl) ?_)
      stab <;> simp [Basic.run, Exp.size, sqpDecl]
  · stab <;> simp [Basic.run, Exp.size, hy, sqpDecl]

theorem sqpLineSearch_stable (h : Small limit s d) : Stable (sqpTy limit s d) (sqpLineSearch d) (sqpDecl d) := by
  refine .cons (declare_stable h (by simp)) (.cons (assign_stable rfl) (.cons (sqpViolation_stable h rfl) (.cons ?_
    (.cons (ocpCost_stable rfl) (.cons ?_ (.cons (declare_stable h (by simp)) (.cons (.many (.cons (assign_stable rfl)
    (.cons ?_ (.cons (ocpCost_stable rfl) (.cons (sqpViolation_stable h rfl) .nil))))) .nil)))))))
  all_goals stab <;> simp [Basic.run, Exp.size, sqpDecl]

theorem sqpUpdate_stable (h : Small limit s d) (hS : 0 < d.S) : Stable (sqpTy limit s d) (sqpUpdate limit s d) (sqpDecl d) := by
  refine .cons (declare_stable h (by simp)) (.cons (ocpLagGradient_stable hS rfl rfl rfl rfl rfl rfl) (.cons ?_ (.cons (assign_stable rfl) .nil)))
  refine .cons ?_ (.cons (declare_stable h (by simp)) (.cons (declare_stable h (by simp)) (.cons (assign_stable ?_) (.cons ?_ (.cons ?_
    (.cons (.alt (assign_stable ?_) (assign_stable ?_)) ?_))))))
  all_goals try stab
  all_goals simp [Basic.run, Exp.size, sqpDecl]

theorem sqpBounds_stable : Stable (sqpTy limit s d) (sqpBounds d) (sqpDecl d) := by
  refine .cons (assign_stable rfl) (.cons (assign_stable rfl) (.cons ?_ (.cons ?_ (.cons (assign_stable ?_) (.cons (assign_stable ?_) .nil)))))
  all_goals try stab
  all_goals simp [Basic.run, Exp.size, sqpDecl]

theorem sqpSolveQp_stable (h : Small limit s d) (n : ℕ) : Stable (sqpTy limit s d) (sqpSolveQp limit s d n) (sqpDecl d) := by
  refine .cons (boxSolve_stable (m := qp) (fun _ => rfl) (fun _ => rfl) ?_ ⟨rfl, rfl, rfl, rfl, rfl, rfl, rfl, rfl, rfl⟩ n) ?_
  · refine lt_of_le_of_lt (le_of_eq ?_) h.dual
    unfold dualSize
    ring
  · stab <;> simp [Basic.run, Exp.size, sqpDecl, boxDecl, dualSize]
    omega

theorem sqpStep_stable (h : Small limit s d) : Stable (sqpTy limit s d) (sqpStep d) (sqpDecl d) := by
  refine .cons (assign_stable rfl) (.cons ?_ (.cons (sqpLineSearch_stable h) (.cons ?_ (.cons ?_ (.cons (assign_stable rfl)
    (.cons (sqpMaxViolation_stable h rfl) .nil))))))
  all_goals stab <;> simp [Basic.run, Exp.size, sqpDecl]

theorem sqpSolve_stable (h : Small limit s d) (hS : 0 < d.S) (hm : MayerOk d) (n : ℕ) :
    Stable (sqpTy limit s d) (sqpSolve limit s d n) (sqpDecl d) :=
  .cons (.alt (.cons (assign_stable rfl) (.cons (assign_stable rfl) .nil)) .skip) (.cons (declare_stable h (by simp))
    (.cons (declare_stable h (by simp)) (.cons (ocpLagGradientHessian_stable hS rfl rfl rfl rfl rfl rfl rfl hm) (.cons sqpBounds_stable
    (.cons (sqpSolveQp_stable h n) (.cons (sqpStep_stable h) (.cons (.many (.cons (sqpUpdate_stable h hS) (.cons sqpBounds_stable
    (.cons (sqpSolveQp_stable h n) (.cons (sqpStep_stable h) .nil))))) .nil)))))))
end Sqp

/-! ### Failing executions -/

theorem Fails.basic {b : Basic V} (h : ∀ σ, P σ → b.run ty σ = none) : Fails ty P (.basic b) := by
  intro σ r hP hr
  cases hr
  exact h σ hP

theorem Fails.after {v : V} {z : ℕ × ℕ} {a b : Cmd V} (ha : a.Untouched v) (hb : Fails ty (fun σ => σ v = z) b) :
    Fails ty (fun σ => σ v = z) (.seq a b) := .seqRight ha.keeps hb

theorem Fails.declare {v : V} {c : Cmd V} (h : Fails ty (fun σ => σ v = (ty v).initial) c) :
    Fails ty (fun _ => True) (.seq (.declare v) c) := by
  intro σ r _ hr
  cases hr with
  | seqFail _ => rfl
  | seq ha hb =>
    refine h _ _ ?_ hb
    cases ha
    simp

/-- Every object keeps a size that its type admits. -/
theorem keeps_admits (v : V) (c : Cmd V) : Keeps ty (fun σ => (ty v).admits (σ v) = true) c := by
  intro σ σ' hP hr
  generalize hs : some σ' = r at hr
  induction hr generalizing σ' with
  | basic b σ =>
    by_cases hb : (Cmd.basic b).Untouched v
    · rw [Basic.run_other hb hs.symm]
      exact hP
    · cases b with
      | assign w e =>
        simp only [Cmd.Untouched, ne_eq, not_not] at hb
        subst hb
        have hs := hs.symm
        simp only [Basic.run, Option.bind_eq_some_iff, Option.ite_none_right_eq_some, Option.some.injEq] at hs
        obtain ⟨z, _, hz, rfl⟩ := hs
        simpa using hz
      | declare w =>
        simp only [Cmd.Untouched, ne_eq, not_not] at hb
        subst hb
        have hs := hs.symm
        simp only [Basic.run, Option.some.injEq] at hs
        subst hs
        cases h : ty w <;> simp [h, Ty.initial, Ty.admits]
      | _ => exact absurd trivial hb
  | skip σ => cases hs; exact hP
  | seqFail _ _ => cases hs
  | seq _ _ iha ihb => exact ihb _ (iha _ hP rfl) hs
  | altL _ ih => exact ih _ hP hs
  | altR _ ih => exact ih _ hP hs
  | manyStop => cases hs; exact hP
  | manyFail _ _ => cases hs
  | many _ _ iha ihb => exact ihb _ (iha _ hP rfl) hs

section Admm
variable {m : AdmmVar → V} {limit s N M : ℕ} {q : QpArgs V}

theorem admmSolve_fails (hm : Function.Injective m) (hty : ty (m .rhs) = .dynCol) (hN : 0 < N) {n : ℕ} (hn : n ≠ 0) :
    Fails ty (fun _ => True) (admmSolve m limit s N M n q) := by
  refine Fails.declare ?_
  have e : (ty (m .rhs)).initial = (0, 1) := by rw [hty]; rfl
  rw [e]
  have ne : ∀ v, v ≠ AdmmVar.rhs → m v ≠ m .rhs := fun v hv h => hv (hm h)
  have hpb : (parseBounds N M (select limit s M 1) (select limit s N 1) q).Untouched (m .rhs) :=
    ⟨trivial, trivial, untouched_upto fun _ => ⟨trivial, trivial, trivial, trivial⟩,
      untouched_upto fun _ => ⟨trivial, trivial, trivial, trivial⟩, trivial⟩
  have hrho : (admmRho m limit s N M).Untouched (m .rhs) :=
    ⟨untouched_upto fun _ => ⟨trivial, trivial, trivial⟩, untouched_upto fun _ => ⟨trivial, trivial, trivial⟩, ne _ (by simp), trivial⟩
  have hkkt : (admmKkt m limit s N M q).Untouched (m .rhs) :=
    ⟨trivial, trivial, trivial, ⟨trivial, trivial⟩, trivial, trivial, trivial, trivial⟩
  refine .after (by exact (ne _ (by simp))) ?_
  refine .after (by exact (ne _ (by simp))) ?_
  refine .after (by exact (ne _ (by simp))) ?_
  refine .after (by exact ⟨trivial, trivial, trivial⟩) ?_
  refine .after (by exact (ne _ (by simp))) ?_
  refine .after (by exact hpb) ?_
  refine .after (by exact hrho) ?_
  refine .after (by exact hkkt) ?_
  refine .seqLeft (.turns hn ?_)
  refine .after (by exact (ne _ (by simp))) ?_
  refine .seqLeft (.after (by exact trivial) (.seqLeft (.basic fun σ hσ => ?_)))
  simp [Basic.run, Exp.size, hσ, hN.ne']
end Admm

section Box
variable {m : BoxVar → V} {limit s N M : ℕ} {q : QpArgs V}

theorem boxSolve_fails (hm : Function.Injective m) (hty : ty (m .rhs) = .dynCol) (hN : 0 < N) {n : ℕ} (hn : n ≠ 0) :
    Fails ty (fun _ => True) (boxSolve m limit s N M n q) := by
  refine Fails.declare ?_
  have e : (ty (m .rhs)).initial = (0, 1) := by rw [hty]; rfl
  rw [e]
  have ne : ∀ v, v ≠ BoxVar.rhs → m v ≠ m .rhs := fun v hv h => hv (hm h)
  have hpb : (parseBounds N M (select limit s M 1) (select limit s N 1) q).Untouched (m .rhs) :=
    ⟨trivial, trivial, untouched_upto fun _ => ⟨trivial, trivial, trivial, trivial⟩,
      untouched_upto fun _ => ⟨trivial, trivial, trivial, trivial⟩, trivial⟩
  have hrho : (boxRho m limit s N M).Untouched (m .rhs) :=
    ⟨untouched_upto fun _ => ⟨trivial, trivial, trivial⟩, ne _ (by simp), untouched_upto fun _ => ⟨trivial, trivial, trivial⟩,
      ne _ (by simp), trivial⟩
  have hkkt : (boxKkt m N M q).Untouched (m .rhs) :=
    ⟨trivial, ne _ (by simp), trivial, trivial, trivial, ⟨trivial, trivial⟩, trivial, trivial, trivial, trivial⟩
  refine .after (by exact (ne _ (by simp))) ?_
  refine .after (by exact (ne _ (by simp))) ?_
  refine .after (by exact (ne _ (by simp))) ?_
  refine .after (by exact (ne _ (by simp))) ?_
  refine .after (by exact (ne _ (by simp))) ?_
  refine .after (by exact hpb) ?_
  refine .after (by exact hrho) ?_
  refine .after (by exact hkkt) ?_
  refine .seqLeft (.turns hn ?_)
  refine .after (by exact (ne _ (by simp))) ?_
  refine .seqLeft (.after (by exact trivial) (.seqLeft (.basic fun σ hσ => ?_)))
  simp [Basic.run, Exp.size, hσ, hN.ne']
end Box

section Sqp
variable {limit s : ℕ} {d : Dims} {ty : SqpVar → Ty}
open SqpVar

/-- Commands of the transcription assign to no object. -/
def Cmd.Pure : Cmd V → Prop
  | .basic (.assign _ _) => False
  | .basic (.declare _) => False
  | .basic _ => True
  | .skip => True
  | .seq a b => Pure a ∧ Pure b
  | .alt a b => Pure a ∧ Pure b
  | .many a => Pure a

theorem Cmd.Pure.untouched {c : Cmd V} (h : c.Pure) (v : V) : c.Untouched v := by
  induction c with
  | basic b => cases b <;> first | exact h.elim | trivial
  | skip => trivial
  | seq a b iha ihb => exact ⟨iha h.1, ihb h.2⟩
  | alt a b iha ihb => exact ⟨iha h.1, ihb h.2⟩
  | many a ih => exact ih h

theorem pure_upto {n : ℕ} {f : ℕ → Cmd V} (h : ∀ k, (f k).Pure) : (Cmd.upto n f).Pure := by
  induction n with
  | zero => trivial
  | succ n ih => exact ⟨ih, h n⟩

theorem readNode_pure (var : Exp V) (k : ℕ) : (readNode d var k).Pure := ⟨trivial, trivial, trivial, trivial⟩

theorem addGrad_pure (g : Exp V) (k : ℕ) : (addGrad d g k).Pure := ⟨trivial, trivial, trivial, trivial⟩

theorem addHess_pure (h : Exp V) (k : ℕ) : (addHess d h k).Pure :=
  ⟨trivial, trivial, trivial, trivial, trivial, trivial, trivial, trivial, trivial, trivial⟩

theorem addHessMayer_pure (h : Exp V) : (addHessMayer d h).Pure :=
  ⟨trivial, trivial, trivial, trivial, trivial, trivial, trivial, trivial, trivial, trivial⟩

theorem readMayerU_pure (var : Exp V) : (readMayerU d var).Pure := pure_upto fun _ => trivial

theorem ocpCostGradientHessian_pure (var g h : Exp V) : (ocpCostGradientHessian d var g h).Pure :=
  ⟨trivial, trivial, pure_upto fun _ => trivial,
    pure_upto fun _ => pure_upto fun _ => ⟨readNode_pure _ _, trivial, addGrad_pure _ _, addHess_pure _ _, trivial⟩, trivial,
    readMayerU_pure _, ⟨trivial, trivial, trivial, trivial⟩, addHessMayer_pure _, trivial⟩

/-- A solve whose first linearisation fails. -/
theorem sqpSolve_fails {n : ℕ} {P : (SqpVar → ℕ × ℕ) → Prop}
    (h1 : Keeps ty P (.alt (.block [.assign x (.lit d.VAR 1), .assign lam (.lit (dualSize d) 1)]) .skip))
    (h2 : Keeps ty P (.declare dir)) (h3 : Keeps ty P (.declare dirLam)) (h : Fails ty P (sqpLinearise limit s d)) :
    Fails ty P (sqpSolve limit s d n) :=
  .seqRight h1 (.seqRight h2 (.seqRight h3 (.seqLeft h)))

theorem sqpLinearise_fails_H (hS : 0 < d.S) (hX : 0 < d.NX) :
    Fails ty (fun σ => σ H = (0, 0)) (sqpLinearise limit s d) := by
  refine .seqLeft ?_
  refine .after (by exact trivial) ?_
  refine .after (by exact trivial) ?_
  refine .after (by exact untouched_upto fun _ => trivial) ?_
  refine .seqLeft ?_
  refine .upto (k := 0) hS (fun j hj => absurd hj (by omega)) ?_
  refine .upto (k := 0) (by omega) (fun j hj => absurd hj (by omega)) ?_
  refine .after (by exact (readNode_pure _ _).untouched _) ?_
  refine .after (by exact trivial) ?_
  refine .after (by exact (addGrad_pure _ _).untouched _) ?_
  refine .seqLeft (.seqLeft (.basic fun σ hσ => ?_))
  simp [Basic.run, Exp.size, hσ, hX.ne']

theorem sqpLinearise_fails_A (hX : 0 < d.NEQ) : Fails ty (fun σ => σ A = (0, 0)) (sqpLinearise limit s d) := by
  refine .after (by exact ((ocpCostGradientHessian_pure _ _ _).untouched _)) (.seqLeft (.after (by exact trivial)
    (.seqLeft (.basic fun σ hσ => ?_))))
  simp [Basic.run, Exp.size, hσ, hX.ne']

theorem sqpLinearise_fails_mayer (hty : ty x = .fixed d.VAR 1) (hm : ¬ MayerOk d) :
    Fails ty (fun σ => (ty x).admits (σ x) = true) (sqpLinearise limit s d) := by
  have hx : ∀ σ : SqpVar → ℕ × ℕ, (ty x).admits (σ x) = true → σ x = (d.VAR, 1) := by
    intro σ h
    rw [hty] at h
    simpa [Ty.admits] using h
  simp only [MayerOk, not_or, not_and_or, not_le] at hm
  refine .seqLeft (.seqRight (keeps_admits _ _) (.seqRight (keeps_admits _ _) (.seqRight (keeps_admits _ _)
    (.seqRight (keeps_admits _ _) (.seqRight (keeps_admits _ _) (.seqLeft ?_))))))
  rcases hm.2 with h | h
  · refine .upto (k := d.NX) h (fun _ _ => keeps_admits _ _) (.basic fun σ hσ => ?_)
    by_cases hc : d.VARX + d.NX ≤ d.VAR
    · simp [Basic.run, Exp.size, hx σ hσ, hc]
    · simp [Basic.run, Exp.size, hx σ hσ, hc]
  · refine .upto (k := 0) (Nat.pos_of_ne_zero hm.1) (fun _ _ => keeps_admits _ _) (.basic fun σ hσ => ?_)
    simp [Basic.run, Exp.size, hx σ hσ, Nat.not_le.mpr h]
end Sqp

end PolyMPC.Storage
