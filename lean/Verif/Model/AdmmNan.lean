import Mathlib.Algebra.Order.Field.Basic
import Verif.Model.SqpNan

/-!
# ADMM and boxADMM with NaN

The loop of `solve_impl` of `/repo/src/solvers/admm.hpp` (141-208) and `/repo/src/solvers/box_admm.hpp` (117-200) with
dense matrices where vectors may have NaN entries (`none`). Modelled are the update of `x`, the dual residual, the
termination test and the adaptation of `rho`. All else (`x_tilde`, `z`, `y`, `q`, the primal residual and the norms in the
tolerances) is given by arbitrary functions, so that one model covers both solvers.
-/

namespace PolyMPC.AdmmNan
open PolyMPC.FilterNan PolyMPC.SqpNan

variable {K T : Type*} [Field K] [LinearOrder K] {n : ℕ}

/-- `a + b`, admm.hpp:153, qp_base.hpp:251 -/
def addN (a b : Option K) : Option K := a.bind fun a => b.map fun b => a + b

/-- `a * b`, admm.hpp:153, qp_base.hpp:251 -/
def mulN (a b : Option K) : Option K := a.bind fun a => b.map fun b => a * b

/-- `a / b`, admm.hpp:488-491 -/
def divN (a b : Option K) : Option K := a.bind fun a => b.map fun b => a / b

/-- The sum in an entry of a matrix-vector product, qp_base.hpp:251. -/
def sumN (l : List (Option K)) : Option K := l.foldr addN (some 0)

/-- `fmin`, admm.hpp:188. -/
def fminN : Option K → Option K → Option K
  | some a, some b => some (min a b)
  | some a, none => some a
  | none, b => b

/-- The settings used, qp_base.hpp:18-45; the integers are taken to be nonnegative. -/
structure Cfg (K : Type*) where
  alpha : K
  epsAbs : K
  epsRel : K
  adaptiveRho : Bool
  tolerance : K
  interval : ℕ
  checkTermination : ℕ
  maxIter : ℕ

/-- The problem and the parts of the solvers that are not modelled. `T` holds `z`, `y` and the other vectors of the solver;
`rest` is `h + A'y + y_box` of the dual residual; `maxPrim` and `maxDual` are `m_max_Ax_z_norm` and
`m_max_Hx_ATy_h_norm` (admm.hpp:446-468, box_admm.hpp:398-415). `sqrtN` is `sqrt`. -/
structure Solver (K T : Type*) (n : ℕ) where
  H : Fin n → Fin n → Option K
  xTilde : K → (Fin n → Option K) → T → Fin n → Option K
  next : K → (Fin n → Option K) → T → T
  rest : (Fin n → Option K) → T → Fin n → Option K
  resPrim : (Fin n → Option K) → T → Option K
  maxPrim : (Fin n → Option K) → T → Option K
  maxDual : (Fin n → Option K) → T → Option K
  sqrtN : Option K → Option K

/-- Update of `m_x` in ADMM, admm.hpp:153. -/
def xUpdate (alpha : K) (xt x : Fin n → Option K) : Fin n → Option K :=
  fun i => addN (mulN (some alpha) (xt i)) (mulN (some (1 - alpha)) (x i))

/-- Update of `m_x` in boxADMM, box_admm.hpp:129-130: the old value is overwritten before it is used. -/
def xUpdateBox (alpha : K) (xt _x : Fin n → Option K) : Fin n → Option K :=
  fun i => addN (mulN (some alpha) (xt i)) (mulN (some (1 - alpha)) (mulN (some alpha) (xt i)))

/-- `dual_residual`, qp_base.hpp:251, box_admm.hpp:467. -/
def resDual (mc : (k : ℕ) → (Fin k → Option K) → Option K) (s : Solver K T n) (x : Fin n → Option K) (t : T) : Option K :=
  mc n fun i => (addN (sumN (List.ofFn fun j => mulN (s.H i j) (x j))) (s.rest x t i)).map fun r => |r|

/-- `termination_criteria`, admm.hpp:470-483, box_admm.hpp:417-431. -/
def terminated (mc : (k : ℕ) → (Fin k → Option K) → Option K) (cfg : Cfg K) (s : Solver K T n) (x : Fin n → Option K)
    (t : T) : Bool :=
  leN (s.resPrim x t) (addN (some cfg.epsAbs) (mulN (some cfg.epsRel) (s.maxPrim x t))) &&
    leN (resDual mc s x t) (addN (some cfg.epsAbs) (mulN (some cfg.epsRel) (s.maxDual x t)))

/-- `RHO_MIN`, admm.hpp:88. -/
def rhoMin : K := 1 / 10 ^ 6

/-- `RHO_MAX`, admm.hpp:89. -/
def rhoMax : K := 10 ^ 6

/-- `estimate_rho`, admm.hpp:485-493, box_admm.hpp:433-445, with the constant `DIV_BY_ZERO_REGUL` as `reg`. -/
def estimateRho (mc : (k : ℕ) → (Fin k → Option K) → Option K) (reg : K) (s : Solver K T n) (rho : K)
    (x : Fin n → Option K) (t : T) : Option K :=
  let rp := divN (s.resPrim x t) (addN (s.maxPrim x t) (some reg))
  let rd := divN (resDual mc s x t) (addN (s.maxDual x t) (some reg))
  mulN (some rho) (s.sqrtN (divN rp (addN rd (some reg))))

/-- The limits and the tolerance, admm.hpp:188-198, box_admm.hpp:175-187. -/
def adaptRho (cfg : Cfg K) (rho : K) (est : Option K) : K :=
  match fmaxN (some rhoMin) (fminN est (some rhoMax)) with
  | some r => if r < rho / cfg.tolerance ∨ r > rho * cfg.tolerance then r else rho
  | none => rho

/-- What a call leaves: `true` is SOLVED and `false` MAX_ITER_EXCEEDED; `info().iter`; `rho`; `m_x`. -/
structure Out (K : Type*) (n : ℕ) where
  solved : Bool
  iter : ℕ
  rho : K
  x : Fin n → Option K

/-- The loop, admm.hpp:141-208, box_admm.hpp:117-200, from iteration `it` on; `fuel` iterations are left. `upd` is the
update of `x`. -/
def loop (upd : K → (Fin n → Option K) → (Fin n → Option K) → Fin n → Option K)
    (mc : (k : ℕ) → (Fin k → Option K) → Option K) (reg : K) (cfg : Cfg K) (s : Solver K T n) :
    ℕ → ℕ → K → (Fin n → Option K) → T → Out K n
  | 0, it, rho, x, _ => ⟨false, it, rho, x⟩
  | fuel + 1, it, rho, x, t =>
    let x' := upd cfg.alpha (s.xTilde rho x t) x
    let t' := s.next rho x t
    if cfg.checkTermination ≠ 0 ∧ it % cfg.checkTermination = 0 ∧ terminated mc cfg s x' t' = true then ⟨true, it, rho, x'⟩
    else
      let rho' := if cfg.adaptiveRho = true ∧ it % cfg.interval = 0 then adaptRho cfg rho (estimateRho mc reg s rho x' t') else rho
      loop upd mc reg cfg s fuel (it + 1) rho' x' t'

/-- `solve_impl` of ADMM with a guess, admm.hpp:112-213. -/
def solve (mc : (k : ℕ) → (Fin k → Option K) → Option K) (reg : K) (cfg : Cfg K) (s : Solver K T n) (rho : K)
    (xGuess : Fin n → Option K) (t : T) : Out K n := loop xUpdate mc reg cfg s cfg.maxIter 1 rho xGuess t

/-- `solve_impl` of boxADMM with a guess, box_admm.hpp:88-205. -/
def solveBox (mc : (k : ℕ) → (Fin k → Option K) → Option K) (reg : K) (cfg : Cfg K) (s : Solver K T n) (rho : K)
    (xGuess : Fin n → Option K) (t : T) : Out K n := loop xUpdateBox mc reg cfg s cfg.maxIter 1 rho xGuess t

end PolyMPC.AdmmNan
