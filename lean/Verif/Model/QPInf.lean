import Verif.Spec.QPInf
import Verif.Model.BoxAdmm

/-!
# ADMM and boxADMM with infinite bounds (dense data)

The bounds handed to the QP solvers are often infinite: `SQPBase` sets them to `±INF` in its constructor (sqp_base.hpp:75-78, 156, where
`INF` is `std::numeric_limits<scalar_t>::infinity()`), and users leave them there. This file models the places at which the solvers read
a bound (`parse_constraints_bounds`, the projections) for bounds that are a number or infinite, with the IEEE rules for comparison,
subtraction, `max` and `min` with an infinite operand. Everything that does not read a bound is shared with `Verif.Model.Admm` and
`Verif.Model.BoxAdmm`: those functions are called with `data qp`, whose (zero) bounds they do not read.

Lower bounds `+∞` and upper bounds `-∞` (no feasible point) are not modelled; with the remaining values no operation yields NaN.
-/

namespace PolyMPC.QPInfBase
open Matrix PolyMPC.Spec PolyMPC.QPBase

variable {K : Type*} [Field K] [LinearOrder K] [IsStrictOrderedRing K] {N M : ℕ}

/-- `H`, `h` and `A` of the arguments of `solve`, for functions that do not read the bounds. -/
def data (qp : QPInf K N M) : QP K N M where
  H := qp.H
  h := qp.h
  A := qp.A
  Alb := fun _ => 0
  Aub := fun _ => 0
  xlb := fun _ => 0
  xub := fun _ => 0

/-- `ub - lb < EQ_TOL`, qp_base.hpp:205 and 216: with an infinite operand the difference is `+∞`. -/
def gapSmall (lb : WithBot K) (ub : WithTop K) : Prop :=
  match lb, ub with
  | (l : K), (u : K) => u - l < eqTol
  | _, _ => False

instance (lb : WithBot K) (ub : WithTop K) : Decidable (gapSmall lb ub) :=
  match lb, ub with
  | ⊥, _ => isFalse (fun h => h)
  | (l : K), ⊤ => isFalse (fun h => h)
  | (l : K), (u : K) => inferInstanceAs (Decidable (u - l < eqTol))

/-- Body of both loops in `parse_constraints_bounds`, qp_base.hpp:203-208 and 214-219. -/
def classify (lb : WithBot K) (ub : WithTop K) : ConstraintType :=
  if lb < ((-looseBoundsThresh : K) : WithBot K) ∧ ub > ((looseBoundsThresh : K) : WithTop K) then .LOOSE_BOUNDS
  else if gapSmall lb ub then .EQUALITY_CONSTRAINT
  else .INEQUALITY_CONSTRAINT

/-- `cwiseMax(lb)` of a finite number. -/
def maxLower (v : K) (lb : WithBot K) : K :=
  match lb with
  | ⊥ => v
  | (l : K) => max v l

/-- `cwiseMin(ub)` of a finite number. -/
def minUpper (v : K) (ub : WithTop K) : K :=
  match ub with
  | ⊤ => v
  | (u : K) => min v u

end PolyMPC.QPInfBase

namespace PolyMPC.AdmmInf
open Matrix PolyMPC.Spec PolyMPC.QPBase PolyMPC.QPInfBase
open PolyMPC.Admm (StepResult State KktMat KktIdx)

variable {K : Type*} [Field K] [LinearOrder K] [IsStrictOrderedRing K] {N M : ℕ}

/-- `box_projection`, admm.hpp:397-403. -/
def boxProjection (v : Fin M ⊕ Fin N → K) (lba : Fin M → WithBot K) (uba : Fin M → WithTop K) (lbx : Fin N → WithBot K)
    (ubx : Fin N → WithTop K) : Fin M ⊕ Fin N → K
  | Sum.inl i => minUpper (maxLower (v (Sum.inl i)) (lba i)) (uba i)
  | Sum.inr i => minUpper (maxLower (v (Sum.inr i)) (lbx i)) (ubx i)

/-- The updates of `x_tilde, z_tilde, x, z, y` in one pass of the loop, admm.hpp:143-163. -/
def admmUpdate (lin : KktMat K N M → (KktIdx N M → K) → (KktIdx N M → K)) (cfg : Settings K) (qp : QPInf K N M)
    (st : State K N M) : State K N M :=
  let zPrev := st.z
  let sol := lin st.fact (Admm.kktRhs cfg.sigma qp.h st)
  let xTilde : Fin N → K := fun i => sol (Sum.inl i)
  let zTilde : Fin M ⊕ Fin N → K := fun i => zPrev i + st.rhoInvVec i * (sol (Sum.inr i) - st.y i)
  let x : Fin N → K := fun i => cfg.alpha * xTilde i + (1 - cfg.alpha) * st.x i
  let z0 : Fin M ⊕ Fin N → K := fun i => cfg.alpha * zTilde i
  let z1 : Fin M ⊕ Fin N → K := fun i => z0 i + ((1 - cfg.alpha) * zPrev i + st.rhoInvVec i * st.y i)
  let z := boxProjection z1 qp.Alb qp.Aub qp.xlb qp.xub
  let y : Fin M ⊕ Fin N → K := fun i =>
    st.y i + st.rhoVec i * (cfg.alpha * zTilde i + (1 - cfg.alpha) * zPrev i - z i)
  { st with zPrev := zPrev, xTilde := xTilde, zTilde := zTilde, x := x, z := z, y := y }

/-- One pass of the loop, admm.hpp:143-206. -/
def body (lin : KktMat K N M → (KktIdx N M → K) → (KktIdx N M → K)) (sq : K → K) (cfg : Settings K) (qp : QPInf K N M)
    (iter : ℤ) (st : State K N M) : StepResult (State K N M) :=
  let st1 := admmUpdate lin cfg qp st
  let check := Admm.checkNow cfg iter
  let st2 := if check then Admm.residualsUpdate (data qp) st1 else st1
  if check && Admm.terminationCriteria cfg st2 then
    .brk { st2 with info := { st2.info with status := .SOLVED } }
  else if cfg.adaptiveRho then
    if cfg.adaptiveRhoInterval = 0 then .ub
    else if iter.tmod cfg.adaptiveRhoInterval = 0 then
      let st3 := if check then st2 else Admm.residualsUpdate (data qp) st2
      .cont (Admm.adaptRho sq cfg st3)
    else .cont st2
  else .cont st2

/-- The `for` loop, admm.hpp:141-206; first argument: remaining passes, `max_iter - iter + 1`. -/
def loop (lin : KktMat K N M → (KktIdx N M → K) → (KktIdx N M → K)) (sq : K → K) (cfg : Settings K) (qp : QPInf K N M) :
    ℕ → ℤ → State K N M → Option (ℤ × State K N M)
  | 0, iter, st => some (iter, st)
  | n + 1, iter, st =>
    match body lin sq cfg qp iter st with
    | .ub => none
    | .brk s => some (iter, s)
    | .cont s => loop lin sq cfg qp n (iter + 1) s

/-- Everything before the loop, admm.hpp:117-138. `old` is the object before the call. -/
def setup (both : Bool) (cfg : Settings K) (qp : QPInf K N M) (xGuess : Fin N → K) (yGuess : Fin M ⊕ Fin N → K)
    (old : State K N M) : State K N M :=
  let A := Admm.constructA qp.A
  let s1 := { old with
    x := xGuess, y := yGuess, A := A, z := A *ᵥ xGuess
    constrType := fun i => classify (qp.Alb i) (qp.Aub i)
    boxType := fun i => classify (qp.xlb i) (qp.xub i) }
  let s2 := Admm.rhoVecUpdate cfg.rho s1
  let s3 := Admm.factorise { s2 with kkt := Admm.constructKkt both cfg.sigma qp.H A s2.rhoInvVec s2.kkt }
  { s3 with info := { s3.info with status := .UNSOLVED } }

/-- `solve_impl` with initial guess, admm.hpp:112-213. -/
def solve (both : Bool) (lin : KktMat K N M → (KktIdx N M → K) → (KktIdx N M → K)) (sq : K → K) (cfg : Settings K)
    (qp : QPInf K N M) (xGuess : Fin N → K) (yGuess : Fin M ⊕ Fin N → K) (old : State K N M) : Option (State K N M) :=
  match loop lin sq cfg qp cfg.maxIter.toNat 1 (setup both cfg qp xGuess yGuess old) with
  | none => none
  | some (iter, st) =>
    let st1 := if iter > cfg.maxIter then { st with info := { st.info with status := .MAX_ITER_EXCEEDED } } else st
    some { st1 with info := { st1.info with iter := iter } }

end PolyMPC.AdmmInf

namespace PolyMPC.BoxAdmmInf
open Matrix PolyMPC.Spec PolyMPC.QPBase PolyMPC.QPInfBase
open PolyMPC.Admm (StepResult)
open PolyMPC.BoxAdmm (State KktMat KktIdx)

variable {K : Type*} [Field K] [LinearOrder K] [IsStrictOrderedRing K] {N M : ℕ}

/-- The updates of `x_tilde, z_tilde, x, z, q, y` in one pass of the loop, box_admm.hpp:119-147. -/
def admmUpdate (lin : KktMat K N M → (KktIdx N M → K) → (KktIdx N M → K)) (cfg : Settings K) (qp : QPInf K N M)
    (st : State K N M) : State K N M :=
  let zPrev := st.z
  let sol := lin st.fact (BoxAdmm.kktRhs cfg.sigma qp.h st)
  let xTilde : Fin N → K := fun i => sol (Sum.inl i)
  let zTilde : Fin M → K := fun i => zPrev i + st.rhoInvVec i * (sol (Sum.inr i) - headM st.y i)
  let x := BoxAdmm.xUpdate cfg.alpha xTilde
  let z0 : Fin M → K := fun i => cfg.alpha * zTilde i
  let z1 : Fin M → K := fun i => z0 i + ((1 - cfg.alpha) * zPrev i + st.rhoInvVec i * headM st.y i)
  let z : Fin M → K := fun i => minUpper (maxLower (z1 i) (qp.Alb i)) (qp.Aub i)
  let q1 : Fin N → K := fun i => x i + st.rhoVecBoxInv i * tailN st.y i
  let q : Fin N → K := fun i => minUpper (maxLower (q1 i) (qp.xlb i)) (qp.xub i)
  let yA : Fin M → K := fun i =>
    headM st.y i + st.rhoVec i * (cfg.alpha * zTilde i + (1 - cfg.alpha) * zPrev i - z i)
  let yB : Fin N → K := fun i => tailN st.y i + st.rhoVecBox i * (x i - q i)
  { st with zPrev := zPrev, xTilde := xTilde, zTilde := zTilde, x := x, z := z, q := q, y := Sum.elim yA yB }

/-- One pass of the loop, box_admm.hpp:119-197. -/
def body (lin : KktMat K N M → (KktIdx N M → K) → (KktIdx N M → K)) (sq : K → K) (cfg : Settings K) (qp : QPInf K N M)
    (iter : ℤ) (st : State K N M) : StepResult (State K N M) :=
  let st1 := admmUpdate lin cfg qp st
  let check := BoxAdmm.checkNow cfg iter
  let st2 := if check then BoxAdmm.residualsUpdate (data qp) st1 else st1
  if check && BoxAdmm.terminationCriteria cfg st2 then
    .brk { st2 with info := { st2.info with status := .SOLVED } }
  else if cfg.adaptiveRho then
    if cfg.adaptiveRhoInterval = 0 then .ub
    else if iter.tmod cfg.adaptiveRhoInterval = 0 then
      let st3 := if check then st2 else BoxAdmm.residualsUpdate (data qp) st2
      .cont (BoxAdmm.adaptRho sq cfg st3)
    else .cont st2
  else .cont st2

/-- The `for` loop, box_admm.hpp:117-197; first argument: remaining passes, `max_iter - iter + 1`. -/
def loop (lin : KktMat K N M → (KktIdx N M → K) → (KktIdx N M → K)) (sq : K → K) (cfg : Settings K) (qp : QPInf K N M) :
    ℕ → ℤ → State K N M → Option (ℤ × State K N M)
  | 0, iter, st => some (iter, st)
  | n + 1, iter, st =>
    match body lin sq cfg qp iter st with
    | .ub => none
    | .brk s => some (iter, s)
    | .cont s => loop lin sq cfg qp n (iter + 1) s

/-- Everything before the loop, box_admm.hpp:93-112. `old` is the object before the call. -/
def setup (both : Bool) (cfg : Settings K) (qp : QPInf K N M) (xGuess : Fin N → K) (yGuess : Fin M ⊕ Fin N → K)
    (old : State K N M) : State K N M :=
  let s1 := { old with
    x := xGuess, y := yGuess, z := qp.A *ᵥ xGuess, q := xGuess
    constrType := fun i => classify (qp.Alb i) (qp.Aub i)
    boxType := fun i => classify (qp.xlb i) (qp.xub i) }
  let s2 := BoxAdmm.rhoVecUpdate cfg.rho s1
  let s3 := BoxAdmm.factorise
    { s2 with kkt := BoxAdmm.constructKkt both cfg.sigma qp.H qp.A s2.rhoVecBox s2.rhoInvVec s2.kkt }
  { s3 with info := { s3.info with status := .UNSOLVED } }

/-- `solve_impl` with initial guess, box_admm.hpp:84-205. -/
def solve (both : Bool) (lin : KktMat K N M → (KktIdx N M → K) → (KktIdx N M → K)) (sq : K → K) (cfg : Settings K)
    (qp : QPInf K N M) (xGuess : Fin N → K) (yGuess : Fin M ⊕ Fin N → K) (old : State K N M) : Option (State K N M) :=
  match loop lin sq cfg qp cfg.maxIter.toNat 1 (setup both cfg qp xGuess yGuess old) with
  | none => none
  | some (iter, st) =>
    let st1 := if iter > cfg.maxIter then { st with info := { st.info with status := .MAX_ITER_EXCEEDED } } else st
    some { st1 with info := { st1.info with iter := iter } }

end PolyMPC.BoxAdmmInf
