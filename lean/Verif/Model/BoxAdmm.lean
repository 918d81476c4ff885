import Verif.Model.Admm

/-!
# boxADMM solver (dense data)

Model of `/repo/src/solvers/box_admm.hpp`, class `boxADMM` with `MatrixType == DENSE`. Conventions as in
`Verif.Model.Admm`; a KKT vector (size `N + M`) is indexed by `Fin N ⊕ Fin M`. The dual vector `m_y` is indexed by
`Fin M ⊕ Fin N`.
-/

namespace PolyMPC.BoxAdmm
open Matrix PolyMPC.Spec PolyMPC.QPBase
open PolyMPC.Admm (StepResult)

variable {K : Type*} [Field K] [LinearOrder K] [IsStrictOrderedRing K] {N M : ℕ}

/-- Index of a KKT vector (`kkt_vec_t`, qp_base.hpp:110). -/
abbrev KktIdx (N M : ℕ) := Fin N ⊕ Fin M

/-- Type of the KKT matrix (`kkt_mat_t`, qp_base.hpp:117-118). -/
abbrev KktMat (K : Type*) (N M : ℕ) := Matrix (KktIdx N M) (KktIdx N M) K

/-- `RHO_MIN`, box_admm.hpp:56. -/
def rhoMin : K := 1 / 1000000
/-- `RHO_MAX`, box_admm.hpp:57. -/
def rhoMax : K := 1000000
/-- `RHO_EQ_FACTOR`, box_admm.hpp:59. -/
def rhoEqFactor : K := 1000

/-- Data members of a `boxADMM` object: box_admm.hpp:44-68 and qp_base.hpp:129-142. -/
structure State (K : Type*) (N M : ℕ) where
  x : Fin N → K
  y : Fin M ⊕ Fin N → K
  xTilde : Fin N → K
  q : Fin N → K
  z : Fin M → K
  zTilde : Fin M → K
  zPrev : Fin M → K
  rhoVec : Fin M → K
  rhoInvVec : Fin M → K
  rhoVecBox : Fin N → K
  rhoVecBoxInv : Fin N → K
  rhoVecBoxPrev : Fin N → K
  rho : K
  maxAxZ : K
  maxHxATyh : K
  /-- `m_K` -/
  kkt : KktMat K N M
  /-- the matrix last passed to `linear_solver.compute` -/
  fact : KktMat K N M
  constrType : Fin M → ConstraintType
  boxType : Fin N → ConstraintType
  info : Info K

/-- The entry written by one pass of the switch in `rho_vec_update`, box_admm.hpp:361-372 and 380-391. -/
def rhoEntry (t : ConstraintType) (rho0 : K) : K :=
  match t with
  | .LOOSE_BOUNDS => rhoMin
  | .EQUALITY_CONSTRAINT => rhoEqFactor * rho0
  | .INEQUALITY_CONSTRAINT => rho0

/-- `rho_vec_update`, box_admm.hpp:357-396. -/
def rhoVecUpdate (rho0 : K) (st : State K N M) : State K N M :=
  let rv : Fin M → K := fun i => rhoEntry (st.constrType i) rho0
  let rb : Fin N → K := fun i => rhoEntry (st.boxType i) rho0
  { st with
    rhoVec := rv
    rhoInvVec := fun i => (rv i)⁻¹
    rho := rho0
    rhoVecBox := rb
    rhoVecBoxInv := fun i => (rb i)⁻¹
    info := { st.info with rhoUpdates := st.info.rhoUpdates + 1 } }

/-- `construct_kkt_matrix` (dense), box_admm.hpp:209-223. The top right block is written only for `Upper|Lower`; only the
diagonal of the bottom right block is written, the rest keeps what `m_K` held before (zero from
`allocate_kkt_matrix`, box_admm.hpp:71-74, at the first call). -/
def constructKkt (both : Bool) (sigma : K) (H : Matrix (Fin N) (Fin N) K) (A : Matrix (Fin M) (Fin N) K)
    (rhoBox : Fin N → K) (rhoInv : Fin M → K) (old : KktMat K N M) : KktMat K N M :=
  Matrix.fromBlocks (H + (Matrix.diagonal fun _ => sigma) + Matrix.diagonal rhoBox)
    (if both then Aᵀ else old.toBlocks₁₂) A
    (Matrix.of fun i j => if i = j then -(rhoInv i) else old.toBlocks₂₂ i j)

/-- `factorise_kkt_matrix`, box_admm.hpp:336-341. -/
def factorise (st : State K N M) : State K N M := { st with fact := st.kkt }

/-- `update_kkt_rho` (dense), box_admm.hpp:448-452: add the change of the box step sizes to the first `N` diagonal
entries of `m_K`, overwrite the last `M`. -/
def updateKktRho (st : State K N M) : State K N M :=
  { st with kkt := fun i j =>
      match i, j with
      | Sum.inl a, Sum.inl b =>
        if a = b then st.kkt i j + (st.rhoVecBox a - st.rhoVecBoxPrev a) else st.kkt i j
      | Sum.inr a, Sum.inr b => if a = b then -(st.rhoInvVec a) else st.kkt i j
      | _, _ => st.kkt i j }

/-- `compute_kkt_rhs`, box_admm.hpp:351-355. -/
def kktRhs (sigma : K) (h : Fin N → K) (st : State K N M) : KktIdx N M → K :=
  Sum.elim (fun i => sigma * st.x i - h i + st.rhoVecBox i * st.q i - tailN st.y i)
    (fun i => st.z i - st.rhoInvVec i * headM st.y i)

/-- The update of `x`, box_admm.hpp:129-130: the second statement reads the value the first one has just written. -/
def xUpdate (alpha : K) (xTilde : Fin N → K) : Fin N → K :=
  let x1 : Fin N → K := fun i => alpha * xTilde i
  fun i => x1 i + (1 - alpha) * x1 i

/-- The updates of `x_tilde, z_tilde, x, z, q, y` in one pass of the loop, box_admm.hpp:119-147. -/
def admmUpdate (lin : KktMat K N M → (KktIdx N M → K) → (KktIdx N M → K)) (cfg : Settings K) (qp : QP K N M)
    (st : State K N M) : State K N M :=
  let zPrev := st.z
  let sol := lin st.fact (kktRhs cfg.sigma qp.h st)
  let xTilde : Fin N → K := fun i => sol (Sum.inl i)
  let zTilde : Fin M → K := fun i => zPrev i + st.rhoInvVec i * (sol (Sum.inr i) - headM st.y i)
  let x := xUpdate cfg.alpha xTilde
  let z0 : Fin M → K := fun i => cfg.alpha * zTilde i
  let z1 : Fin M → K := fun i => z0 i + ((1 - cfg.alpha) * zPrev i + st.rhoInvVec i * headM st.y i)
  let z : Fin M → K := fun i => min (max (z1 i) (qp.Alb i)) (qp.Aub i)
  let q1 : Fin N → K := fun i => x i + st.rhoVecBoxInv i * tailN st.y i
  let q : Fin N → K := fun i => min (max (q1 i) (qp.xlb i)) (qp.xub i)
  let yA : Fin M → K := fun i =>
    headM st.y i + st.rhoVec i * (cfg.alpha * zTilde i + (1 - cfg.alpha) * zPrev i - z i)
  let yB : Fin N → K := fun i => tailN st.y i + st.rhoVecBox i * (x i - q i)
  { st with zPrev := zPrev, xTilde := xTilde, zTilde := zTilde, x := x, z := z, q := q, y := Sum.elim yA yB }

/-- `residuals_update`, box_admm.hpp:398-415. -/
def residualsUpdate (qp : QP K N M) (st : State K N M) : State K N M :=
  let normAx := infNorm (qp.A *ᵥ st.x)
  let normZ := infNorm st.z
  let normHx := infNorm (qp.H *ᵥ st.x)
  let normATy := infNorm (qp.Aᵀ *ᵥ headM st.y)
  let normh := infNorm qp.h
  let normYBox := infNorm (tailN st.y)
  { st with
    maxAxZ := max normAx (max normZ (infNorm st.x))
    maxHxATyh := max normHx (max normATy (max normh normYBox))
    info := { st.info with
      resPrim := primalResidual qp.A st.x st.z + infNorm (st.x - st.q)
      resDual := dualResidual qp.H qp.h qp.A st.x st.y } }

/-- `eps_prim`, box_admm.hpp:417-420. -/
def epsPrim (cfg : Settings K) (st : State K N M) : K := cfg.epsAbs + cfg.epsRel * st.maxAxZ

/-- `eps_dual`, box_admm.hpp:422-425. -/
def epsDual (cfg : Settings K) (st : State K N M) : K := cfg.epsAbs + cfg.epsRel * st.maxHxATyh

/-- `termination_criteria`, box_admm.hpp:427-431. -/
def terminationCriteria (cfg : Settings K) (st : State K N M) : Bool :=
  decide (st.info.resPrim ≤ epsPrim cfg st) && decide (st.info.resDual ≤ epsDual cfg st)

/-- `estimate_rho`, box_admm.hpp:433-445. -/
def estimateRho (sq : K → K) (st : State K N M) (rho0 : K) : K :=
  let rp := st.info.resPrim / (st.maxAxZ + divByZeroRegul)
  let rd := st.info.resDual / (st.maxHxATyh + divByZeroRegul)
  rho0 * sq (rp / (rd + divByZeroRegul))

/-- The clamp of the new step size, box_admm.hpp:174-175. -/
def clampRho (r : K) : K := max rhoMin (min r rhoMax)

/-- The body of `if (adaptive_rho && ...)` after the residuals are up to date, box_admm.hpp:173-186. -/
def adaptRho (sq : K → K) (cfg : Settings K) (st : State K N M) : State K N M :=
  let newRho := clampRho (estimateRho sq st st.rho)
  let st1 := { st with info := { st.info with rhoEstimate := newRho } }
  if newRho < st.rho / cfg.adaptiveRhoTolerance ∨ newRho > st.rho * cfg.adaptiveRhoTolerance then
    factorise (updateKktRho (rhoVecUpdate newRho { st1 with rhoVecBoxPrev := st1.rhoVecBox }))
  else st1

/-- `check_termination` of one pass, box_admm.hpp:149-152. -/
def checkNow (cfg : Settings K) (iter : ℤ) : Bool :=
  decide (cfg.checkTermination ≠ 0) && decide (iter.tmod cfg.checkTermination = 0)

/-- One pass of the loop, box_admm.hpp:119-197. -/
def body (lin : KktMat K N M → (KktIdx N M → K) → (KktIdx N M → K)) (sq : K → K) (cfg : Settings K) (qp : QP K N M)
    (iter : ℤ) (st : State K N M) : StepResult (State K N M) :=
  let st1 := admmUpdate lin cfg qp st
  let check := checkNow cfg iter
  let st2 := if check then residualsUpdate qp st1 else st1
  if check && terminationCriteria cfg st2 then
    .brk { st2 with info := { st2.info with status := .SOLVED } }
  else if cfg.adaptiveRho then
    if cfg.adaptiveRhoInterval = 0 then .ub
    else if iter.tmod cfg.adaptiveRhoInterval = 0 then
      let st3 := if check then st2 else residualsUpdate qp st2
      .cont (adaptRho sq cfg st3)
    else .cont st2
  else .cont st2

/-- The `for` loop, box_admm.hpp:117-197; first argument: remaining passes, `max_iter - iter + 1`. -/
def loop (lin : KktMat K N M → (KktIdx N M → K) → (KktIdx N M → K)) (sq : K → K) (cfg : Settings K) (qp : QP K N M) :
    ℕ → ℤ → State K N M → Option (ℤ × State K N M)
  | 0, iter, st => some (iter, st)
  | n + 1, iter, st =>
    match body lin sq cfg qp iter st with
    | .ub => none
    | .brk s => some (iter, s)
    | .cont s => loop lin sq cfg qp n (iter + 1) s

/-- Everything before the loop, box_admm.hpp:93-112. `old` is the object before the call. -/
def setup (both : Bool) (cfg : Settings K) (qp : QP K N M) (xGuess : Fin N → K) (yGuess : Fin M ⊕ Fin N → K)
    (old : State K N M) : State K N M :=
  let s1 := { old with
    x := xGuess, y := yGuess, z := qp.A *ᵥ xGuess, q := xGuess
    constrType := parseConstr qp.Alb qp.Aub
    boxType := parseBox qp.xlb qp.xub }
  let s2 := rhoVecUpdate cfg.rho s1
  let s3 := factorise { s2 with kkt := constructKkt both cfg.sigma qp.H qp.A s2.rhoVecBox s2.rhoInvVec s2.kkt }
  { s3 with info := { s3.info with status := .UNSOLVED } }

/-- `solve_impl` with initial guess, box_admm.hpp:84-205. -/
def solve (both : Bool) (lin : KktMat K N M → (KktIdx N M → K) → (KktIdx N M → K)) (sq : K → K) (cfg : Settings K)
    (qp : QP K N M) (xGuess : Fin N → K) (yGuess : Fin M ⊕ Fin N → K) (old : State K N M) : Option (State K N M) :=
  match loop lin sq cfg qp cfg.maxIter.toNat 1 (setup both cfg qp xGuess yGuess old) with
  | none => none
  | some (iter, st) =>
    let st1 := if iter > cfg.maxIter then { st with info := { st.info with status := .MAX_ITER_EXCEEDED } } else st
    some { st1 with info := { st1.info with iter := iter } }

/-- A freshly constructed solver: constructor box_admm.hpp:33-41; members left uninitialised are parameters. -/
def fresh (cfg : Settings K) (junkV : Fin M → K) (junkX : Fin N → K) (junk : K) : State K N M where
  x := junkX
  y := fun _ => junk
  xTilde := junkX
  q := junkX
  z := junkV
  zTilde := junkV
  zPrev := junkV
  rhoVec := fun _ => cfg.rho
  rhoInvVec := fun _ => 1 / cfg.rho
  rhoVecBox := junkX
  rhoVecBoxInv := junkX
  rhoVecBoxPrev := junkX
  rho := junk
  maxAxZ := junk
  maxHxATyh := junk
  kkt := 0
  fact := 0
  constrType := fun _ => .INEQUALITY_CONSTRAINT
  boxType := fun _ => .INEQUALITY_CONSTRAINT
  info := Info.default

/-- Position of a KKT index in the vector of size `N + M`. -/
def kktPos : KktIdx N M → ℕ
  | Sum.inl i => i
  | Sum.inr i => N + i

/-- The symmetric matrix a decomposition instantiated with `Lower` sees. -/
def readLower (A : KktMat K N M) : KktMat K N M := fun i j => if kktPos j ≤ kktPos i then A i j else A j i

/-- The matrix of the linear system that is solved, depending on `LinearSolver_UpLo`. -/
def effective (both : Bool) (A : KktMat K N M) : KktMat K N M := if both then A else readLower A

/-- The assumption "the linear solver is exact": for nonsingular systems it returns a solution. -/
def ExactSolver (both : Bool) (lin : KktMat K N M → (KktIdx N M → K) → (KktIdx N M → K)) : Prop :=
  ∀ A b, (effective both A).det ≠ 0 → effective both A *ᵥ lin A b = b

/-- The states a run goes through, see `PolyMPC.Admm.Running`. -/
inductive Running (both : Bool) (lin : KktMat K N M → (KktIdx N M → K) → (KktIdx N M → K)) (sq : K → K)
    (cfg : Settings K) (qp : QP K N M) (xGuess : Fin N → K) (yGuess : Fin M ⊕ Fin N → K) (old : State K N M) :
    ℕ → State K N M → Prop
  | init : Running both lin sq cfg qp xGuess yGuess old 0 (setup both cfg qp xGuess yGuess old)
  | cont {k : ℕ} {st st' : State K N M} (h : Running both lin sq cfg qp xGuess yGuess old k st)
      (hb : body lin sq cfg qp (k + 1 : ℕ) st = .cont st') :
      Running both lin sq cfg qp xGuess yGuess old (k + 1) st'

/-- `st` is the state at the end of pass number `k ≥ 1` of the loop, whether or not the loop stops there. -/
def AfterPass (both : Bool) (lin : KktMat K N M → (KktIdx N M → K) → (KktIdx N M → K)) (sq : K → K)
    (cfg : Settings K) (qp : QP K N M) (xGuess : Fin N → K) (yGuess : Fin M ⊕ Fin N → K) (old : State K N M)
    (k : ℕ) (st : State K N M) : Prop :=
  ∃ k' st', k = k' + 1 ∧ Running both lin sq cfg qp xGuess yGuess old k' st' ∧
    (body lin sq cfg qp k st' = .cont st ∨ body lin sq cfg qp k st' = .brk st)

end PolyMPC.BoxAdmm
