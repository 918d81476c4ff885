import Mathlib.Algebra.BigOperators.Group.Finset.Basic
import Mathlib.Analysis.Real.Sqrt

/-!
# `symbolic_psarc`: continuation along a homotopy; `is_psd`

Models of `src/experimental/psarc.hpp` (the class `symbolic_psarc` with `psarc_math::solve`) and of `is_psd` in `src/solvers/utils.hpp`.

A point is `z : ℕ → ℝ`: entries `0, …, n-1` are the unknowns, entry `n` is `lambda`. The system is given with its Jacobian. `none` is a thrown
exception.

Parameters: the corrector (CasADi's Ipopt object) is a function of its arguments; the sparse LU solver a partial function. After a failed
factorisation the code goes on with an empty matrix, which is not followed here. `std::sqrtf` is the exact root. Printing and the other cases of
`psarc_math::solve`, which the class does not use, are left out; so is `psarc`, which only prints. The constructor keeps nothing: what it computes is only printed, and `operator()`
(160) has no definition.
-/

namespace PolyMPC.Psarc

/-- The system `FX` with `n` unknowns: value and Jacobian. -/
structure Sys where
  n : ℕ
  F : (ℕ → ℝ) → ℕ → ℝ
  DF : (ℕ → ℝ) → ℕ → ℕ → ℝ

/-- `homotopy`, psarc.hpp:173. -/
noncomputable def homotopy (s : Sys) (x0 z : ℕ → ℝ) (i : ℕ) : ℝ := z s.n * (z i - x0 i) + (1 - z s.n) * s.F z i

/-- `jac_x`, psarc.hpp:176. -/
noncomputable def jacX (s : Sys) (z : ℕ → ℝ) (i j : ℕ) : ℝ := z s.n * (if i = j then 1 else 0) + (1 - z s.n) * s.DF z i j

/-- `jac_lam`, psarc.hpp:177. -/
noncomputable def jacL (s : Sys) (x0 z : ℕ → ℝ) (i : ℕ) : ℝ := z i - x0 i - s.F z i

/-- `lbx` of the unknowns, psarc.hpp:206-214: 501 copies of a vector with 13 entries, of which the first is 1, and nothing for the rest. -/
def lower (r : ℕ) : Option ℝ := if r < 501 * 13 ∧ r % 13 = 0 then some 1 else none

/-- `re_size`, psarc.hpp:209. -/
def reSize (s : Sys) : ℤ := (s.n + 1 : ℤ) - 501 * 13

/-- Arguments of the corrector that change between calls: `lambda` if it is fixed by its bounds (226-227, 251-252, 323-324), the point to be projected `p`,
guess and multipliers. -/
structure Args where
  lam : Option ℝ
  p : ℕ → ℝ
  x0 : ℕ → ℝ
  mult : Option ((ℕ → ℝ) × (ℕ → ℝ))

/-- What the corrector returns: `x`, `lam_g`, `lam_x`. -/
structure Res where
  x : ℕ → ℝ
  lamG : ℕ → ℝ
  lamX : ℕ → ℝ

/-- Bounds on the variables in the program of the corrector, psarc.hpp:213-227: the entry of `lambda` is overwritten. -/
def lbx (s : Sys) (a : Args) (r : ℕ) : Option ℝ := if r = s.n then a.lam else lower r
def ubx (s : Sys) (a : Args) (r : ℕ) : Option ℝ := if r = s.n then a.lam else none

/-- Objective of the corrector, psarc.hpp:194. -/
noncomputable def objective (s : Sys) (a : Args) (z : ℕ → ℝ) : ℝ := 1 / 2 * ∑ r ∈ Finset.range (s.n + 1), (z r - a.p r) * (z r - a.p r)

/-- `dot`. -/
noncomputable def dot (n : ℕ) (v w : ℕ → ℝ) : ℝ := ∑ i ∈ Finset.range n, v i * w i

/-- `norm_inf`. -/
noncomputable def normInf : ℕ → (ℕ → ℝ) → ℝ
  | 0, _ => 0
  | n + 1, r => max (normInf n r) |r n|

/-- Rescaling of `r`, psarc.hpp:266-272. -/
noncomputable def rescale (n : ℕ) (r : ℕ → ℝ) : ℕ → ℝ := if normInf n r > 20 then fun i => 20 / normInf n r * r i else r

/-- `tau` for the positive direction, psarc.hpp:274, 287-288. -/
noncomputable def tau (n : ℕ) (r : ℕ → ℝ) : ℕ → ℝ := fun i => if i < n then 1 / √(1 + dot n r r) * r i else if i = n then 1 / √(1 + dot n r r) else 0

/-- The direction chosen, psarc.hpp:276-302; `t` is the direction of the previous iteration, if there is one. -/
noncomputable def direction (n : ℕ) (t : Option (ℕ → ℝ)) (r : ℕ → ℝ) : ℕ → ℝ :=
  match t with
  | none => fun i => -tau n r i
  | some t => if dot (n + 1) t (tau n r) ≥ 0 then tau n r else fun i => -tau n r i

/-- The variables of the loop: `x0_num`, `solution`, `t`, the bounds on `lambda`, `lambda_val`, and whether the loop was left by `break`. -/
structure State where
  x : ℕ → ℝ
  sol : Res
  t : Option (ℕ → ℝ)
  lam : Option ℝ
  lambda : ℝ
  broken : Bool

/-- The corrector and the linear solver. -/
structure Tools where
  corrector : Args → Res
  lin : (ℕ → ℕ → ℝ) → (ℕ → ℝ) → Option (ℕ → ℝ)

/-- Predictor, corrector and refinement, psarc.hpp:304-331, for the direction `t`; `h` is 1 (247). -/
noncomputable def correct (s : Sys) (w : Tools) (st : State) (t : ℕ → ℝ) : State :=
  let next := fun i => st.x i + 1 * t i
  let sol := w.corrector ⟨st.lam, next, st.sol.x, some (st.sol.lamG, st.sol.lamX)⟩
  if sol.x s.n < 0 then
    let sol2 := w.corrector ⟨some 0, next, st.sol.x, some (st.sol.lamG, st.sol.lamX)⟩
    ⟨sol2.x, sol2, some t, some 0, sol2.x s.n, false⟩
  else ⟨sol.x, sol, some t, st.lam, sol.x s.n, false⟩

/-- The body of the loop, psarc.hpp:258-367; `none`: the linear system could not be solved. -/
noncomputable def step (s : Sys) (w : Tools) (x0 : ℕ → ℝ) (st : State) : Option State :=
  (w.lin (jacX s st.x) fun i => -jacL s x0 st.x i).map fun r =>
    { correct s w st (direction s.n st.t (rescale s.n r)) with broken := decide (dot s.n (rescale s.n r) (rescale s.n r) > 1000000) }

/-- The state before the loop, psarc.hpp:206-256. -/
noncomputable def start (s : Sys) (w : Tools) (x0 : ℕ → ℝ) : Option State :=
  if reSize s < 0 then none else
  let z := fun i => if i = s.n then 1 else x0 i
  let sol := w.corrector ⟨some 1, z, z, none⟩
  some ⟨sol.x, sol, none, none, 1, false⟩

/-- What can be said about the loop, psarc.hpp:258, after at most `k` iterations: an exception or failure, still running, or ended in a state. -/
inductive Out where
  | fail
  | running (st : State)
  | ended (st : State)

noncomputable def loop (s : Sys) (w : Tools) (x0 : ℕ → ℝ) : ℕ → State → Out
  | 0, st => if st.lambda > 0 ∧ st.broken = false then .running st else .ended st
  | k + 1, st => if st.lambda > 0 ∧ st.broken = false then
      match step s w x0 st with
      | none => .fail
      | some st' => loop s w x0 k st'
    else .ended st

/-- The constructor, psarc.hpp:163-370, for at most `k` iterations of the loop. -/
noncomputable def construct (s : Sys) (w : Tools) (x0 : ℕ → ℝ) (k : ℕ) : Out :=
  match start s w x0 with
  | none => .fail
  | some st => loop s w x0 k st

/-! ### `is_psd` -/

/-- `is_psd`, solvers/utils.hpp:28-39: `rows` is `RowsAtCompileTime`, which is -1 (`Eigen::Dynamic`) for matrices of dynamic size; `re i` is the
real part of the eigenvalue `i`. -/
def isPsdLoop [DecidableLT ℝ] (re : ℕ → ℝ) : ℕ → ℕ → Bool
  | 0, _ => true
  | m + 1, i => if re i < 0 then false else isPsdLoop re m (i + 1)

noncomputable def isPsd (rows : ℤ) (re : ℕ → ℝ) : Bool := open Classical in isPsdLoop re rows.toNat 0

end PolyMPC.Psarc
