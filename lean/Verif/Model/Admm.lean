import Verif.Model.QPBase
import Mathlib.Data.Matrix.Block
import Mathlib.Data.Matrix.ColumnRowPartitioned
import Mathlib.LinearAlgebra.Matrix.NonsingularInverse

/-!
# ADMM solver (dense data)

Model of `/repo/src/solvers/admm.hpp`, class `ADMM` with `MatrixType == DENSE`.

* The decomposition object `linear_solver` is represented by the matrix that was last handed to `compute` (field
  `fact`) and a parameter `lin : matrix → right-hand side → solution`; nothing is assumed about `lin` unless a theorem
  says so.
* `sqrt` is the parameter `sq`.
* `LinearSolver_UpLo` is the parameter `both : Bool` (`true` = `Upper|Lower`, `false` = `Lower`).
* A KKT vector (size `N + M + N`) is indexed by `Fin N ⊕ (Fin M ⊕ Fin N)`.
* Division by zero of scalars follows Lean's convention (`x / 0 = 0`); theorems that depend on a division assume the
  divisor to be nonzero. Overflow of `iter` (`max_iter = INT_MAX`) is not modelled.
-/

namespace PolyMPC.Admm
open Matrix PolyMPC.Spec PolyMPC.QPBase

variable {K : Type*} [Field K] [LinearOrder K] [IsStrictOrderedRing K] {N M : ℕ}

/-- Index of a KKT vector (`kkt_vec_t`, admm.hpp:34). -/
abbrev KktIdx (N M : ℕ) := Fin N ⊕ (Fin M ⊕ Fin N)

/-- Type of the KKT matrix (`kkt_mat_t`, admm.hpp:32-33). -/
abbrev KktMat (K : Type*) (N M : ℕ) := Matrix (KktIdx N M) (KktIdx N M) K

/-- `RHO_MIN`, admm.hpp:88. -/
def rhoMin : K := 1 / 1000000
/-- `RHO_MAX`, admm.hpp:89. -/
def rhoMax : K := 1000000
/-- `RHO_EQ_FACTOR`, admm.hpp:91. -/
def rhoEqFactor : K := 1000

/-- Data members of an `ADMM` object: admm.hpp:77-100 and qp_base.hpp:129-142. -/
structure State (K : Type*) (N M : ℕ) where
  x : Fin N → K
  y : Fin M ⊕ Fin N → K
  xTilde : Fin N → K
  z : Fin M ⊕ Fin N → K
  zTilde : Fin M ⊕ Fin N → K
  zPrev : Fin M ⊕ Fin N → K
  rhoVec : Fin M ⊕ Fin N → K
  rhoInvVec : Fin M ⊕ Fin N → K
  rho : K
  maxAxZ : K
  maxHxATyh : K
  /-- `m_K` -/
  kkt : KktMat K N M
  /-- the matrix last passed to `linear_solver.compute` -/
  fact : KktMat K N M
  /-- `m_A` -/
  A : Matrix (Fin M ⊕ Fin N) (Fin N) K
  constrType : Fin M → ConstraintType
  boxType : Fin N → ConstraintType
  info : Info K

/-- `construct_A`, admm.hpp:216-222: the stacked matrix `[A; I]`. -/
def constructA (A : Matrix (Fin M) (Fin N) K) : Matrix (Fin M ⊕ Fin N) (Fin N) K :=
  Matrix.fromRows A (1 : Matrix (Fin N) (Fin N) K)

/-- The entry written by one pass of the switch in `rho_vec_update`, admm.hpp:409-420 and 426-437. -/
def rhoEntry (t : ConstraintType) (rho0 : K) : K :=
  match t with
  | .LOOSE_BOUNDS => rhoMin
  | .EQUALITY_CONSTRAINT => rhoEqFactor * rho0
  | .INEQUALITY_CONSTRAINT => rho0

/-- `rho_vec_update`, admm.hpp:405-444. -/
def rhoVecUpdate (rho0 : K) (st : State K N M) : State K N M :=
  let rv : Fin M ⊕ Fin N → K :=
    Sum.elim (fun i => rhoEntry (st.constrType i) rho0) (fun i => rhoEntry (st.boxType i) rho0)
  { st with
    rhoVec := rv
    rhoInvVec := fun i => (rv i)⁻¹
    rho := rho0
    info := { st.info with rhoUpdates := st.info.rhoUpdates + 1 } }

/-- `construct_kkt_matrix` (dense), admm.hpp:249-264. The top right block is written only for `Upper|Lower`; otherwise
it keeps what `m_K` held before (zero from `allocate_kkt_matrix`, admm.hpp:41-44, at the first call). -/
def constructKkt (both : Bool) (sigma : K) (H : Matrix (Fin N) (Fin N) K) (A : Matrix (Fin M ⊕ Fin N) (Fin N) K)
    (rhoInv : Fin M ⊕ Fin N → K) (old : KktMat K N M) : KktMat K N M :=
  Matrix.fromBlocks (H + Matrix.diagonal fun _ => sigma) (if both then Aᵀ else old.toBlocks₁₂)
    A ((-1 : K) • Matrix.diagonal rhoInv)

/-- `factorise_kkt_matrix`, admm.hpp:374-380. -/
def factorise (st : State K N M) : State K N M := { st with fact := st.kkt }

/-- `update_kkt_rho`, admm.hpp:495-499: overwrite the last `N + M` diagonal entries of `m_K`. -/
def updateKktRho (st : State K N M) : State K N M :=
  { st with kkt := fun i j =>
      match i, j with
      | Sum.inr a, Sum.inr b => if a = b then -(st.rhoInvVec a) else st.kkt i j
      | _, _ => st.kkt i j }

/-- `compute_kkt_rhs`, admm.hpp:391-395. -/
def kktRhs (sigma : K) (h : Fin N → K) (st : State K N M) : KktIdx N M → K :=
  Sum.elim (fun i => sigma * st.x i - h i) (fun i => st.z i - st.rhoInvVec i * st.y i)

/-- `box_projection`, admm.hpp:397-403: `cwiseMax(lb)` then `cwiseMin(ub)`. -/
def boxProjection (v : Fin M ⊕ Fin N → K) (lba uba : Fin M → K) (lbx ubx : Fin N → K) : Fin M ⊕ Fin N → K
  | Sum.inl i => min (max (v (Sum.inl i)) (lba i)) (uba i)
  | Sum.inr i => min (max (v (Sum.inr i)) (lbx i)) (ubx i)

/-- The updates of `x_tilde, z_tilde, x, z, y` in one pass of the loop, admm.hpp:143-163. -/
def admmUpdate (lin : KktMat K N M → (KktIdx N M → K) → (KktIdx N M → K)) (cfg : Settings K) (qp : QP K N M)
    (st : State K N M) : State K N M :=
  let zPrev := st.z
  let sol := lin st.fact (kktRhs cfg.sigma qp.h st)
  let xTilde : Fin N → K := fun i => sol (Sum.inl i)
  let zTilde : Fin M ⊕ Fin N → K := fun i => zPrev i + st.rhoInvVec i * (sol (Sum.inr i) - st.y i)
  let x : Fin N → K := fun i => cfg.alpha * xTilde i + (1 - cfg.alpha) * st.x i
  let z0 : Fin M ⊕ Fin N → K := fun i => cfg.alpha * zTilde i
  let z1 : Fin M ⊕ Fin N → K := fun i => z0 i + ((1 - cfg.alpha) * zPrev i + st.rhoInvVec i * st.y i)
  let z := boxProjection z1 qp.Alb qp.Aub qp.xlb qp.xub
  let y : Fin M ⊕ Fin N → K := fun i =>
    st.y i + st.rhoVec i * (cfg.alpha * zTilde i + (1 - cfg.alpha) * zPrev i - z i)
  { st with zPrev := zPrev, xTilde := xTilde, zTilde := zTilde, x := x, z := z, y := y }

/-- `residuals_update`, admm.hpp:446-467. -/
def residualsUpdate (qp : QP K N M) (st : State K N M) : State K N M :=
  let normAx := max (infNorm (qp.A *ᵥ st.x)) (infNorm st.x)
  let normZ := infNorm st.z
  let normHx := infNorm (qp.H *ᵥ st.x)
  let normATy := infNorm (headM st.y ᵥ* qp.A)
  let normh := infNorm qp.h
  let normYBox := infNorm (tailN st.y)
  let resPrim0 := primalResidual qp.A st.x (headM st.z)
  let boxNorm := infNorm (st.x - tailN st.z)
  { st with
    maxAxZ := max normAx normZ
    maxHxATyh := max normHx (max normATy (max normh normYBox))
    info := { st.info with
      resPrim := max resPrim0 boxNorm
      resDual := dualResidual qp.H qp.h qp.A st.x st.y } }

/-- `eps_prim`, admm.hpp:469-472. -/
def epsPrim (cfg : Settings K) (st : State K N M) : K := cfg.epsAbs + cfg.epsRel * st.maxAxZ

/-- `eps_dual`, admm.hpp:474-477. -/
def epsDual (cfg : Settings K) (st : State K N M) : K := cfg.epsAbs + cfg.epsRel * st.maxHxATyh

/-- `termination_criteria`, admm.hpp:479-483. -/
def terminationCriteria (cfg : Settings K) (st : State K N M) : Bool :=
  decide (st.info.resPrim ≤ epsPrim cfg st) && decide (st.info.resDual ≤ epsDual cfg st)

/-- `estimate_rho`, admm.hpp:485-493. -/
def estimateRho (sq : K → K) (st : State K N M) (rho0 : K) : K :=
  let rp := st.info.resPrim / (st.maxAxZ + divByZeroRegul)
  let rd := st.info.resDual / (st.maxHxATyh + divByZeroRegul)
  rho0 * sq (rp / (rd + divByZeroRegul))

/-- The clamp of the new step size, admm.hpp:188-189. -/
def clampRho (r : K) : K := max rhoMin (min r rhoMax)

/-- The body of `if (adaptive_rho && ...)` after the residuals are up to date, admm.hpp:187-200. -/
def adaptRho (sq : K → K) (cfg : Settings K) (st : State K N M) : State K N M :=
  let newRho := clampRho (estimateRho sq st st.rho)
  let st1 := { st with info := { st.info with rhoEstimate := newRho } }
  if newRho < st.rho / cfg.adaptiveRhoTolerance ∨ newRho > st.rho * cfg.adaptiveRhoTolerance then
    factorise (updateKktRho (rhoVecUpdate newRho st1))
  else st1

/-- Outcome of one pass of the loop. -/
inductive StepResult (S : Type*) where
  /-- undefined behaviour: integer remainder by zero -/
  | ub
  /-- `break` -/
  | brk (s : S)
  /-- next iteration -/
  | cont (s : S)

/-- `check_termination` of one pass, admm.hpp:165-168 (`%` truncates towards zero). -/
def checkNow (cfg : Settings K) (iter : ℤ) : Bool :=
  decide (cfg.checkTermination ≠ 0) && decide (iter.tmod cfg.checkTermination = 0)

/-- One pass of the loop, admm.hpp:143-206. -/
def body (lin : KktMat K N M → (KktIdx N M → K) → (KktIdx N M → K)) (sq : K → K) (cfg : Settings K) (qp : QP K N M)
    (iter : ℤ) (st : State K N M) : StepResult (State K N M) :=
  let st1 := admmUpdate lin cfg qp st
  let check := checkNow cfg iter
  let st2 := if check then residualsUpdate qp st1 else st1
  if check && terminationCriteria cfg st2 then
    .brk { st2 with info := { st2.info with status := .SOLVED } }
  else if cfg.adaptiveRho then
    if cfg.adaptiveRhoInterval = 0 then .ub
    else if iter.tmod cfg.adaptiveRhoInterval = 0 then
      let st3 := if check then st2 else residualsUpdate qp st2
      .cont (adaptRho sq cfg st3)
    else .cont st2
  else .cont st2

/-- The `for` loop, admm.hpp:141-206. The first argument is the number of passes that remain, `max_iter - iter + 1`. The
result is the value of `iter` after the loop and the final state; `none` is undefined behaviour. -/
def loop (lin : KktMat K N M → (KktIdx N M → K) → (KktIdx N M → K)) (sq : K → K) (cfg : Settings K) (qp : QP K N M) :
    ℕ → ℤ → State K N M → Option (ℤ × State K N M)
  | 0, iter, st => some (iter, st)
  | n + 1, iter, st =>
    match body lin sq cfg qp iter st with
    | .ub => none
    | .brk s => some (iter, s)
    | .cont s => loop lin sq cfg qp n (iter + 1) s

/-- Everything before the loop, admm.hpp:117-138. `old` is the object before the call. -/
def setup (both : Bool) (cfg : Settings K) (qp : QP K N M) (xGuess : Fin N → K) (yGuess : Fin M ⊕ Fin N → K)
    (old : State K N M) : State K N M :=
  let A := constructA qp.A
  let s1 := { old with
    x := xGuess, y := yGuess, A := A, z := A *ᵥ xGuess
    constrType := parseConstr qp.Alb qp.Aub
    boxType := parseBox qp.xlb qp.xub }
  let s2 := rhoVecUpdate cfg.rho s1
  let s3 := factorise { s2 with kkt := constructKkt both cfg.sigma qp.H A s2.rhoInvVec s2.kkt }
  { s3 with info := { s3.info with status := .UNSOLVED } }

/-- `solve_impl` with initial guess, admm.hpp:112-213. -/
def solve (both : Bool) (lin : KktMat K N M → (KktIdx N M → K) → (KktIdx N M → K)) (sq : K → K) (cfg : Settings K)
    (qp : QP K N M) (xGuess : Fin N → K) (yGuess : Fin M ⊕ Fin N → K) (old : State K N M) : Option (State K N M) :=
  match loop lin sq cfg qp cfg.maxIter.toNat 1 (setup both cfg qp xGuess yGuess old) with
  | none => none
  | some (iter, st) =>
    let st1 := if iter > cfg.maxIter then { st with info := { st.info with status := .MAX_ITER_EXCEEDED } } else st
    some { st1 with info := { st1.info with iter := iter } }

/-- `solve_impl` without guess, admm.hpp:103-109. -/
def solveCold (both : Bool) (lin : KktMat K N M → (KktIdx N M → K) → (KktIdx N M → K)) (sq : K → K) (cfg : Settings K)
    (qp : QP K N M) (old : State K N M) : Option (State K N M) :=
  solve both lin sq cfg qp (fun _ => 0) (fun _ => 0) old

/-- A freshly constructed solver: constructor admm.hpp:62-73 and member initialisers. Members the constructor leaves
uninitialised (vectors, scalars, constraint kinds) are parameters because `solve` overwrites them before reading. -/
def fresh (cfg : Settings K) (junkV : Fin M ⊕ Fin N → K) (junkX : Fin N → K) (junk : K) : State K N M where
  x := junkX
  y := junkV
  xTilde := junkX
  z := junkV
  zTilde := junkV
  zPrev := junkV
  rhoVec := fun _ => cfg.rho
  rhoInvVec := fun _ => 1 / cfg.rho
  rho := junk
  maxAxZ := junk
  maxHxATyh := junk
  kkt := 0
  fact := 0
  A := fun _ _ => junk
  constrType := fun _ => .INEQUALITY_CONSTRAINT
  boxType := fun _ => .INEQUALITY_CONSTRAINT
  info := Info.default

/-- Position of a KKT index in the vector of size `N + M + N`. -/
def kktPos : KktIdx N M → ℕ
  | Sum.inl i => i
  | Sum.inr (Sum.inl i) => N + i
  | Sum.inr (Sum.inr i) => N + M + i

/-- The symmetric matrix a decomposition instantiated with `Lower` sees: it reads the lower triangle only. -/
def readLower (A : KktMat K N M) : KktMat K N M := fun i j => if kktPos j ≤ kktPos i then A i j else A j i

/-- The matrix of the linear system that is solved, depending on `LinearSolver_UpLo` (admm.hpp:16, 36). -/
def effective (both : Bool) (A : KktMat K N M) : KktMat K N M := if both then A else readLower A

/-- The assumption "the linear solver is exact": for nonsingular systems it returns a solution. -/
def ExactSolver (both : Bool) (lin : KktMat K N M → (KktIdx N M → K) → (KktIdx N M → K)) : Prop :=
  ∀ A b, (effective both A).det ≠ 0 → effective both A *ᵥ lin A b = b

/-- The states a run goes through. `Running … k st` means: a call of `solve` (with these arguments, on the object
`old`) reaches the state `st` after `k` passes of the loop and has not stopped (`k = 0`: just before the loop). The test
`iter ≤ max_iter` is left out, so this covers runs with every `max_iter`. -/
inductive Running (both : Bool) (lin : KktMat K N M → (KktIdx N M → K) → (KktIdx N M → K)) (sq : K → K)
    (cfg : Settings K) (qp : QP K N M) (xGuess : Fin N → K) (yGuess : Fin M ⊕ Fin N → K) (old : State K N M) :
    ℕ → State K N M → Prop
  | init : Running both lin sq cfg qp xGuess yGuess old 0 (setup both cfg qp xGuess yGuess old)
  | cont {k : ℕ} {st st' : State K N M} (h : Running both lin sq cfg qp xGuess yGuess old k st)
      (hb : body lin sq cfg qp (k + 1 : ℕ) st = .cont st') :
      Running both lin sq cfg qp xGuess yGuess old (k + 1) st'

/-- `st` is the state at the end of pass number `k ≥ 1` of the loop, whether or not the loop stops there. -/
def AfterPass (both : Bool) (lin : KktMat K N M → (KktIdx N M → K) → (KktIdx N M → K)) (sq : K → K)
    (cfg : Settings K) (qp : QP K N M) (xGuess : Fin N → K) (yGuess : Fin M ⊕ Fin N → K) (old : State K N M)
    (k : ℕ) (st : State K N M) : Prop :=
  ∃ k' st', k = k' + 1 ∧ Running both lin sq cfg qp xGuess yGuess old k' st' ∧
    (body lin sq cfg qp k st' = .cont st ∨ body lin sq cfg qp k st' = .brk st)

end PolyMPC.Admm
