import Verif.Model.BoxAdmm
import Verif.Model.AdmmRounded

/-!
# boxADMM solver (dense data) with rounding errors

The same code as `Verif.Model.BoxAdmm`, with the operations of an arbitrary arithmetic (`Verif.Model.Rounding`). With
`Arith.exact` it is the model of that file (`solve_exact` in `Verif.Props.BoxAdmmRounded`). The functions of
`qp_base.hpp` are those of `Verif.Model.AdmmRounded`.
-/

namespace PolyMPC.BoxAdmmR
open Matrix PolyMPC.Spec PolyMPC.QPBase PolyMPC.BoxAdmm PolyMPC.Rounding
open PolyMPC.Admm (StepResult)
open PolyMPC.AdmmR (classify primalResidual dualResidual)

variable {N M : ℕ}

/-- The switch in `rho_vec_update`, box_admm.hpp:361-372 and 380-391. -/
noncomputable def rhoEntry (ar : Arith) (t : ConstraintType) (rho0 : ℝ) : ℝ :=
  match t with
  | .LOOSE_BOUNDS => ar.lit rhoMin
  | .EQUALITY_CONSTRAINT => ar.mul rhoEqFactor rho0
  | .INEQUALITY_CONSTRAINT => rho0

/-- `rho_vec_update`, box_admm.hpp:357-396. -/
noncomputable def rhoVecUpdate (ar : Arith) (rho0 : ℝ) (st : State ℝ N M) : State ℝ N M :=
  let rv : Fin M → ℝ := fun i => rhoEntry ar (st.constrType i) rho0
  let rb : Fin N → ℝ := fun i => rhoEntry ar (st.boxType i) rho0
  { st with
    rhoVec := rv
    rhoInvVec := fun i => ar.div 1 (rv i)
    rho := rho0
    rhoVecBox := rb
    rhoVecBoxInv := fun i => ar.div 1 (rb i)
    info := { st.info with rhoUpdates := st.info.rhoUpdates + 1 } }

/-- `construct_kkt_matrix` (dense), box_admm.hpp:209-223: the two additions on the diagonal are separate statements. -/
noncomputable def constructKkt (ar : Arith) (both : Bool) (sigma : ℝ) (H : Matrix (Fin N) (Fin N) ℝ) (A : Matrix (Fin M) (Fin N) ℝ)
    (rhoBox : Fin N → ℝ) (rhoInv : Fin M → ℝ) (old : KktMat ℝ N M) : KktMat ℝ N M :=
  Matrix.fromBlocks (Matrix.of fun i j => if i = j then ar.add (ar.add (H i j) sigma) (rhoBox i) else H i j)
    (if both then Aᵀ else old.toBlocks₁₂) A
    (Matrix.of fun i j => if i = j then -(rhoInv i) else old.toBlocks₂₂ i j)

/-- `update_kkt_rho` (dense), box_admm.hpp:448-452. -/
noncomputable def updateKktRho (ar : Arith) (st : State ℝ N M) : State ℝ N M :=
  { st with kkt := fun i j =>
      match i, j with
      | Sum.inl a, Sum.inl b =>
        if a = b then ar.add (st.kkt i j) (ar.sub (st.rhoVecBox a) (st.rhoVecBoxPrev a)) else st.kkt i j
      | Sum.inr a, Sum.inr b => if a = b then -(st.rhoInvVec a) else st.kkt i j
      | _, _ => st.kkt i j }

/-- `compute_kkt_rhs`, box_admm.hpp:351-355. -/
def kktRhs (ar : Arith) (sigma : ℝ) (h : Fin N → ℝ) (st : State ℝ N M) : KktIdx N M → ℝ :=
  Sum.elim (fun i => ar.sub (ar.mulAdd (st.rhoVecBox i) (st.q i) (ar.mulAdd sigma (st.x i) (-(h i)))) (tailN st.y i))
    (fun i => ar.mulAdd (-(st.rhoInvVec i)) (headM st.y i) (st.z i))

/-- The update of `x`, box_admm.hpp:129-130: the second statement reads the value the first one has just written. -/
def xUpdate (ar : Arith) (alpha : ℝ) (xTilde : Fin N → ℝ) : Fin N → ℝ :=
  let x1 : Fin N → ℝ := fun i => ar.mul alpha (xTilde i)
  fun i => ar.mulAdd (ar.sub 1 alpha) (x1 i) (x1 i)

/-- The updates of `x_tilde, z_tilde, x, z, q, y` in one pass of the loop, box_admm.hpp:119-147. -/
noncomputable def admmUpdate (ar : Arith) (lin : KktMat ℝ N M → (KktIdx N M → ℝ) → (KktIdx N M → ℝ)) (cfg : Settings ℝ) (qp : QP ℝ N M)
    (st : State ℝ N M) : State ℝ N M :=
  let zPrev := st.z
  let sol := lin st.fact (kktRhs ar cfg.sigma qp.h st)
  let beta := ar.sub 1 cfg.alpha
  let xTilde : Fin N → ℝ := fun i => sol (Sum.inl i)
  let zTilde : Fin M → ℝ := fun i => ar.mulAdd (st.rhoInvVec i) (ar.sub (sol (Sum.inr i)) (headM st.y i)) (zPrev i)
  let x := xUpdate ar cfg.alpha xTilde
  let z0 : Fin M → ℝ := fun i => ar.mul cfg.alpha (zTilde i)
  let z1 : Fin M → ℝ := fun i => ar.add (z0 i) (ar.lin2 beta (zPrev i) (st.rhoInvVec i) (headM st.y i))
  let z : Fin M → ℝ := fun i => min (max (z1 i) (qp.Alb i)) (qp.Aub i)
  let q1 : Fin N → ℝ := fun i => ar.mulAdd (st.rhoVecBoxInv i) (tailN st.y i) (x i)
  let q : Fin N → ℝ := fun i => min (max (q1 i) (qp.xlb i)) (qp.xub i)
  let yA : Fin M → ℝ := fun i =>
    ar.mulAdd (st.rhoVec i) (ar.sub (ar.lin2 cfg.alpha (zTilde i) beta (zPrev i)) (z i)) (headM st.y i)
  let yB : Fin N → ℝ := fun i => ar.mulAdd (st.rhoVecBox i) (ar.sub (x i) (q i)) (tailN st.y i)
  { st with zPrev := zPrev, xTilde := xTilde, zTilde := zTilde, x := x, z := z, q := q, y := Sum.elim yA yB }

/-- `residuals_update`, box_admm.hpp:398-415. -/
noncomputable def residualsUpdate (ar : Arith) (qp : QP ℝ N M) (st : State ℝ N M) : State ℝ N M :=
  let normAx := infNorm fun i => ar.dot N (qp.A i) st.x
  let normZ := infNorm st.z
  let normHx := infNorm fun i => ar.dot N (qp.H i) st.x
  let normATy := infNorm fun i => ar.dot M (fun j => qp.A j i) (headM st.y)
  let normh := infNorm qp.h
  let normYBox := infNorm (tailN st.y)
  { st with
    maxAxZ := max normAx (max normZ (infNorm st.x))
    maxHxATyh := max normHx (max normATy (max normh normYBox))
    info := { st.info with
      resPrim := ar.add (primalResidual ar qp.A st.x st.z) (infNorm fun i => ar.sub (st.x i) (st.q i))
      resDual := dualResidual ar qp.H qp.h qp.A st.x st.y } }

/-- `eps_prim`, box_admm.hpp:417-420. -/
def epsPrim (ar : Arith) (cfg : Settings ℝ) (st : State ℝ N M) : ℝ := ar.mulAdd cfg.epsRel st.maxAxZ cfg.epsAbs

/-- `eps_dual`, box_admm.hpp:422-425. -/
def epsDual (ar : Arith) (cfg : Settings ℝ) (st : State ℝ N M) : ℝ := ar.mulAdd cfg.epsRel st.maxHxATyh cfg.epsAbs

/-- `termination_criteria`, box_admm.hpp:427-431. -/
noncomputable def terminationCriteria (ar : Arith) (cfg : Settings ℝ) (st : State ℝ N M) : Bool :=
  decide (st.info.resPrim ≤ epsPrim ar cfg st) && decide (st.info.resDual ≤ epsDual ar cfg st)

/-- `estimate_rho`, box_admm.hpp:433-445. -/
noncomputable def estimateRho (ar : Arith) (st : State ℝ N M) (rho0 : ℝ) : ℝ :=
  let rp := ar.div st.info.resPrim (ar.add st.maxAxZ (ar.lit divByZeroRegul))
  let rd := ar.div st.info.resDual (ar.add st.maxHxATyh (ar.lit divByZeroRegul))
  ar.mul rho0 (ar.sqrt (ar.div rp (ar.add rd (ar.lit divByZeroRegul))))

/-- The clamp of the new step size, box_admm.hpp:174-175. -/
noncomputable def clampRho (ar : Arith) (r : ℝ) : ℝ := max (ar.lit rhoMin) (min r rhoMax)

/-- The body of `if (adaptive_rho && ...)` after the residuals are up to date, box_admm.hpp:173-186. -/
noncomputable def adaptRho (ar : Arith) (cfg : Settings ℝ) (st : State ℝ N M) : State ℝ N M :=
  let newRho := clampRho ar (estimateRho ar st st.rho)
  let st1 := { st with info := { st.info with rhoEstimate := newRho } }
  if newRho < ar.div st.rho cfg.adaptiveRhoTolerance ∨ newRho > ar.mul st.rho cfg.adaptiveRhoTolerance then
    factorise (updateKktRho ar (rhoVecUpdate ar newRho { st1 with rhoVecBoxPrev := st1.rhoVecBox }))
  else st1

/-- One pass of the loop, box_admm.hpp:119-197. -/
noncomputable def body (ar : Arith) (lin : KktMat ℝ N M → (KktIdx N M → ℝ) → (KktIdx N M → ℝ)) (cfg : Settings ℝ) (qp : QP ℝ N M)
    (iter : ℤ) (st : State ℝ N M) : StepResult (State ℝ N M) :=
  let st1 := admmUpdate ar lin cfg qp st
  let check := checkNow cfg iter
  let st2 := if check then residualsUpdate ar qp st1 else st1
  if check && terminationCriteria ar cfg st2 then
    .brk { st2 with info := { st2.info with status := .SOLVED } }
  else if cfg.adaptiveRho then
    if cfg.adaptiveRhoInterval = 0 then .ub
    else if iter.tmod cfg.adaptiveRhoInterval = 0 then
      let st3 := if check then st2 else residualsUpdate ar qp st2
      .cont (adaptRho ar cfg st3)
    else .cont st2
  else .cont st2

/-- The `for` loop, box_admm.hpp:117-197; first argument: remaining passes. -/
noncomputable def loop (ar : Arith) (lin : KktMat ℝ N M → (KktIdx N M → ℝ) → (KktIdx N M → ℝ)) (cfg : Settings ℝ) (qp : QP ℝ N M) :
    ℕ → ℤ → State ℝ N M → Option (ℤ × State ℝ N M)
  | 0, iter, st => some (iter, st)
  | n + 1, iter, st =>
    match body ar lin cfg qp iter st with
    | .ub => none
    | .brk s => some (iter, s)
    | .cont s => loop ar lin cfg qp n (iter + 1) s

/-- Everything before the loop, box_admm.hpp:93-112. -/
noncomputable def setup (ar : Arith) (both : Bool) (cfg : Settings ℝ) (qp : QP ℝ N M) (xGuess : Fin N → ℝ) (yGuess : Fin M ⊕ Fin N → ℝ)
    (old : State ℝ N M) : State ℝ N M :=
  let s1 := { old with
    x := xGuess, y := yGuess, z := fun i => ar.dot N (qp.A i) xGuess, q := xGuess
    constrType := fun i => classify ar (qp.Alb i) (qp.Aub i)
    boxType := fun i => classify ar (qp.xlb i) (qp.xub i) }
  let s2 := rhoVecUpdate ar cfg.rho s1
  let s3 := factorise { s2 with kkt := constructKkt ar both cfg.sigma qp.H qp.A s2.rhoVecBox s2.rhoInvVec s2.kkt }
  { s3 with info := { s3.info with status := .UNSOLVED } }

/-- `solve_impl` with initial guess, box_admm.hpp:84-205. -/
noncomputable def solve (ar : Arith) (both : Bool) (lin : KktMat ℝ N M → (KktIdx N M → ℝ) → (KktIdx N M → ℝ)) (cfg : Settings ℝ)
    (qp : QP ℝ N M) (xGuess : Fin N → ℝ) (yGuess : Fin M ⊕ Fin N → ℝ) (old : State ℝ N M) : Option (State ℝ N M) :=
  match loop ar lin cfg qp cfg.maxIter.toNat 1 (setup ar both cfg qp xGuess yGuess old) with
  | none => none
  | some (iter, st) =>
    let st1 := if iter > cfg.maxIter then { st with info := { st.info with status := .MAX_ITER_EXCEEDED } } else st
    some { st1 with info := { st1.info with iter := iter } }

end PolyMPC.BoxAdmmR
