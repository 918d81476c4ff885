import Verif.Model.Admm
import Verif.Model.Rounding

/-!
# ADMM solver (dense data) with rounding errors

The same code as `Verif.Model.Admm`, with the operations of an arbitrary arithmetic in place of those of a field. With
`Arith.exact` it is the model of that file (`solve_exact` in `Verif.Props.AdmmRounded`). The data members and settings
are those of that file; the linear solver remains a parameter.
-/

namespace PolyMPC.AdmmR
open Matrix PolyMPC.Spec PolyMPC.QPBase PolyMPC.Admm PolyMPC.Rounding

variable {N M : ℕ}

/-- Body of both loops in `parse_constraints_bounds`, qp_base.hpp:203-208 and 214-219. -/
noncomputable def classify (ar : Arith) (lb ub : ℝ) : ConstraintType :=
  if lb < -looseBoundsThresh ∧ ub > looseBoundsThresh then .LOOSE_BOUNDS
  else if ar.sub ub lb < ar.lit eqTol then .EQUALITY_CONSTRAINT
  else .INEQUALITY_CONSTRAINT

/-- The switch in `rho_vec_update`, admm.hpp:409-420 and 426-437. -/
noncomputable def rhoEntry (ar : Arith) (t : ConstraintType) (rho0 : ℝ) : ℝ :=
  match t with
  | .LOOSE_BOUNDS => ar.lit rhoMin
  | .EQUALITY_CONSTRAINT => ar.mul rhoEqFactor rho0
  | .INEQUALITY_CONSTRAINT => rho0

/-- `rho_vec_update`, admm.hpp:405-444. -/
noncomputable def rhoVecUpdate (ar : Arith) (rho0 : ℝ) (st : State ℝ N M) : State ℝ N M :=
  let rv : Fin M ⊕ Fin N → ℝ :=
    Sum.elim (fun i => rhoEntry ar (st.constrType i) rho0) (fun i => rhoEntry ar (st.boxType i) rho0)
  { st with
    rhoVec := rv
    rhoInvVec := fun i => ar.div 1 (rv i)
    rho := rho0
    info := { st.info with rhoUpdates := st.info.rhoUpdates + 1 } }

/-- `construct_kkt_matrix` (dense), admm.hpp:249-264. -/
noncomputable def constructKkt (ar : Arith) (both : Bool) (sigma : ℝ) (H : Matrix (Fin N) (Fin N) ℝ) (A : Matrix (Fin M ⊕ Fin N) (Fin N) ℝ)
    (rhoInv : Fin M ⊕ Fin N → ℝ) (old : KktMat ℝ N M) : KktMat ℝ N M :=
  Matrix.fromBlocks (Matrix.of fun i j => if i = j then ar.add (H i j) sigma else H i j) (if both then Aᵀ else old.toBlocks₁₂)
    A ((-1 : ℝ) • Matrix.diagonal rhoInv)

/-- `compute_kkt_rhs`, admm.hpp:391-395. -/
def kktRhs (ar : Arith) (sigma : ℝ) (h : Fin N → ℝ) (st : State ℝ N M) : KktIdx N M → ℝ :=
  Sum.elim (fun i => ar.mulAdd sigma (st.x i) (-(h i))) (fun i => ar.mulAdd (-(st.rhoInvVec i)) (st.y i) (st.z i))

/-- The updates of `x_tilde, z_tilde, x, z, y` in one pass of the loop, admm.hpp:143-163. -/
noncomputable def admmUpdate (ar : Arith) (lin : KktMat ℝ N M → (KktIdx N M → ℝ) → (KktIdx N M → ℝ)) (cfg : Settings ℝ) (qp : QP ℝ N M)
    (st : State ℝ N M) : State ℝ N M :=
  let zPrev := st.z
  let sol := lin st.fact (kktRhs ar cfg.sigma qp.h st)
  let beta := ar.sub 1 cfg.alpha
  let xTilde : Fin N → ℝ := fun i => sol (Sum.inl i)
  let zTilde : Fin M ⊕ Fin N → ℝ := fun i => ar.mulAdd (st.rhoInvVec i) (ar.sub (sol (Sum.inr i)) (st.y i)) (zPrev i)
  let x : Fin N → ℝ := fun i => ar.lin2 cfg.alpha (xTilde i) beta (st.x i)
  let z0 : Fin M ⊕ Fin N → ℝ := fun i => ar.mul cfg.alpha (zTilde i)
  let z1 : Fin M ⊕ Fin N → ℝ := fun i => ar.add (z0 i) (ar.lin2 beta (zPrev i) (st.rhoInvVec i) (st.y i))
  let z := boxProjection z1 qp.Alb qp.Aub qp.xlb qp.xub
  let y : Fin M ⊕ Fin N → ℝ := fun i =>
    ar.mulAdd (st.rhoVec i) (ar.sub (ar.lin2 cfg.alpha (zTilde i) beta (zPrev i)) (z i)) (st.y i)
  { st with zPrev := zPrev, xTilde := xTilde, zTilde := zTilde, x := x, z := z, y := y }

/-- `primal_residual_impl`, qp_base.hpp:240-244. -/
noncomputable def primalResidual (ar : Arith) (A : Matrix (Fin M) (Fin N) ℝ) (x : Fin N → ℝ) (b : Fin M → ℝ) : ℝ :=
  infNorm fun i => ar.sub (ar.dot N (A i) x) (b i)

/-- `dual_residual_impl`, qp_base.hpp:247-252. -/
noncomputable def dualResidual (ar : Arith) (H : Matrix (Fin N) (Fin N) ℝ) (h : Fin N → ℝ) (A : Matrix (Fin M) (Fin N) ℝ) (x : Fin N → ℝ)
    (y : Fin M ⊕ Fin N → ℝ) : ℝ :=
  infNorm fun i => ar.add (ar.add (ar.add (ar.dot N (H i) x) (h i)) (ar.dot M (fun j => A j i) (headM y))) (tailN y i)

/-- `residuals_update`, admm.hpp:446-467. -/
noncomputable def residualsUpdate (ar : Arith) (qp : QP ℝ N M) (st : State ℝ N M) : State ℝ N M :=
  let normAx := max (infNorm fun i => ar.dot N (qp.A i) st.x) (infNorm st.x)
  let normZ := infNorm st.z
  let normHx := infNorm fun i => ar.dot N (qp.H i) st.x
  let normATy := infNorm fun i => ar.dot M (headM st.y) (fun j => qp.A j i)
  let normh := infNorm qp.h
  let normYBox := infNorm (tailN st.y)
  let resPrim0 := primalResidual ar qp.A st.x (headM st.z)
  let boxNorm := infNorm fun i => ar.sub (st.x i) (tailN st.z i)
  { st with
    maxAxZ := max normAx normZ
    maxHxATyh := max normHx (max normATy (max normh normYBox))
    info := { st.info with
      resPrim := max resPrim0 boxNorm
      resDual := dualResidual ar qp.H qp.h qp.A st.x st.y } }

/-- `eps_prim`, admm.hpp:469-472. -/
def epsPrim (ar : Arith) (cfg : Settings ℝ) (st : State ℝ N M) : ℝ := ar.mulAdd cfg.epsRel st.maxAxZ cfg.epsAbs

/-- `eps_dual`, admm.hpp:474-477. -/
def epsDual (ar : Arith) (cfg : Settings ℝ) (st : State ℝ N M) : ℝ := ar.mulAdd cfg.epsRel st.maxHxATyh cfg.epsAbs

/-- `termination_criteria`, admm.hpp:479-483. -/
noncomputable def terminationCriteria (ar : Arith) (cfg : Settings ℝ) (st : State ℝ N M) : Bool :=
  decide (st.info.resPrim ≤ epsPrim ar cfg st) && decide (st.info.resDual ≤ epsDual ar cfg st)

/-- `estimate_rho`, admm.hpp:485-493. -/
noncomputable def estimateRho (ar : Arith) (st : State ℝ N M) (rho0 : ℝ) : ℝ :=
  let rp := ar.div st.info.resPrim (ar.add st.maxAxZ (ar.lit divByZeroRegul))
  let rd := ar.div st.info.resDual (ar.add st.maxHxATyh (ar.lit divByZeroRegul))
  ar.mul rho0 (ar.sqrt (ar.div rp (ar.add rd (ar.lit divByZeroRegul))))

/-- The clamp of the new step size, admm.hpp:188-189. -/
noncomputable def clampRho (ar : Arith) (r : ℝ) : ℝ := max (ar.lit rhoMin) (min r rhoMax)

/-- The body of `if (adaptive_rho && ...)` after the residuals are up to date, admm.hpp:187-200. -/
noncomputable def adaptRho (ar : Arith) (cfg : Settings ℝ) (st : State ℝ N M) : State ℝ N M :=
  let newRho := clampRho ar (estimateRho ar st st.rho)
  let st1 := { st with info := { st.info with rhoEstimate := newRho } }
  if newRho < ar.div st.rho cfg.adaptiveRhoTolerance ∨ newRho > ar.mul st.rho cfg.adaptiveRhoTolerance then
    factorise (updateKktRho (rhoVecUpdate ar newRho st1))
  else st1

/-- One pass of the loop, admm.hpp:143-206. -/
noncomputable def body (ar : Arith) (lin : KktMat ℝ N M → (KktIdx N M → ℝ) → (KktIdx N M → ℝ)) (cfg : Settings ℝ) (qp : QP ℝ N M)
    (iter : ℤ) (st : State ℝ N M) : StepResult (State ℝ N M) :=
  let st1 := admmUpdate ar lin cfg qp st
  let check := checkNow cfg iter
  let st2 := if check then residualsUpdate ar qp st1 else st1
  if check && terminationCriteria ar cfg st2 then
    .brk { st2 with info := { st2.info with status := .SOLVED } }
  else if cfg.adaptiveRho then
    if cfg.adaptiveRhoInterval = 0 then .ub
    else if iter.tmod cfg.adaptiveRhoInterval = 0 then
      let st3 := if check then st2 else residualsUpdate ar qp st2
      .cont (adaptRho ar cfg st3)
    else .cont st2
  else .cont st2

/-- The `for` loop, admm.hpp:141-206; first argument: remaining passes. -/
noncomputable def loop (ar : Arith) (lin : KktMat ℝ N M → (KktIdx N M → ℝ) → (KktIdx N M → ℝ)) (cfg : Settings ℝ) (qp : QP ℝ N M) :
    ℕ → ℤ → State ℝ N M → Option (ℤ × State ℝ N M)
  | 0, iter, st => some (iter, st)
  | n + 1, iter, st =>
    match body ar lin cfg qp iter st with
    | .ub => none
    | .brk s => some (iter, s)
    | .cont s => loop ar lin cfg qp n (iter + 1) s

/-- Everything before the loop, admm.hpp:117-138. -/
noncomputable def setup (ar : Arith) (both : Bool) (cfg : Settings ℝ) (qp : QP ℝ N M) (xGuess : Fin N → ℝ) (yGuess : Fin M ⊕ Fin N → ℝ)
    (old : State ℝ N M) : State ℝ N M :=
  let A := constructA qp.A
  let s1 := { old with
    x := xGuess, y := yGuess, A := A, z := fun i => ar.dot N (A i) xGuess
    constrType := fun i => classify ar (qp.Alb i) (qp.Aub i)
    boxType := fun i => classify ar (qp.xlb i) (qp.xub i) }
  let s2 := rhoVecUpdate ar cfg.rho s1
  let s3 := factorise { s2 with kkt := constructKkt ar both cfg.sigma qp.H A s2.rhoInvVec s2.kkt }
  { s3 with info := { s3.info with status := .UNSOLVED } }

/-- `solve_impl` with initial guess, admm.hpp:112-213. -/
noncomputable def solve (ar : Arith) (both : Bool) (lin : KktMat ℝ N M → (KktIdx N M → ℝ) → (KktIdx N M → ℝ)) (cfg : Settings ℝ)
    (qp : QP ℝ N M) (xGuess : Fin N → ℝ) (yGuess : Fin M ⊕ Fin N → ℝ) (old : State ℝ N M) : Option (State ℝ N M) :=
  match loop ar lin cfg qp cfg.maxIter.toNat 1 (setup ar both cfg qp xGuess yGuess old) with
  | none => none
  | some (iter, st) =>
    let st1 := if iter > cfg.maxIter then { st with info := { st.info with status := .MAX_ITER_EXCEEDED } } else st
    some { st1 with info := { st1.info with iter := iter } }

end PolyMPC.AdmmR
