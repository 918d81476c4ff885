import Mathlib.Data.Matrix.Mul
import Mathlib.Data.Matrix.Basic
import Mathlib.LinearAlgebra.Matrix.Trace
import Mathlib.Analysis.Real.Sqrt
import Mathlib.Data.List.FinRange

/-!
# Riccati and Lyapunov solvers, LQR

Model of `src/control/lqr.hpp` and of the namespace `oc` of `src/polymath.cpp` (337-534). The two files hold the same functions except for the
iteration limit and the shift named below. Numbers are real, arithmetic is exact. What the code takes from Eigen (real Schur form, SVD,
eigenvalues, LU solution of a linear system, roots of a polynomial) is a parameter (`Ext`); the properties state what they assume of it.
`poly_eval` is the value of the polynomial. `X.noalias() = (U * X) * U.transpose()` (lqr.hpp:51) is taken as the product of the old `X`.
Matrices have at least one row where the code indexes the last column (lqr.hpp:42).
-/

namespace PolyMPC.Lqr
open Matrix

/-- The decompositions the code takes from Eigen. -/
structure Ext where
  /-- `RealSchur`: `(matrixT, matrixU)` (lqr.hpp:33-35) -/
  schur : {n : ℕ} → Matrix (Fin n) (Fin n) ℝ → Matrix (Fin n) (Fin n) ℝ × Matrix (Fin n) (Fin n) ℝ
  /-- `partialPivLu().solve` (lqr.hpp:42, 48) -/
  solve : {n : ℕ} → Matrix (Fin n) (Fin n) ℝ → (Fin n → ℝ) → Fin n → ℝ
  /-- `JacobiSVD` with full factors: `(matrixU, singularValues, matrixV)` (lqr.hpp:13-15) -/
  svd : {r c : ℕ} → Matrix (Fin r) (Fin c) ℝ → Matrix (Fin r) (Fin r) ℝ × (Fin (min r c) → ℝ) × Matrix (Fin c) (Fin c) ℝ
  /-- real parts of `PolynomialSolver<double, 3>::roots`, coefficients from the constant one upwards (lqr.hpp:65-66, 78) -/
  roots : (Fin 4 → ℝ) → List ℝ
  /-- `EigenSolver::eigenvalues().real()` (lqr.hpp:154-157, 203-204) -/
  eigRe : {n : ℕ} → Matrix (Fin n) (Fin n) ℝ → Fin n → ℝ

variable (e : Ext)

/-! ### Pseudo-inverse -/

/-- The loop of `pinv` (lqr.hpp:18-23). -/
noncomputable def invertSv (s : ℝ) : ℝ := if 1 / 10 ^ 6 < s then 1 / s else 0

/-- `pinv` (lqr.hpp:10-25, polymath.cpp:438-453). The loop runs over `mat.cols()` entries of a vector with `min(rows, cols)` entries, and the
product in the last line multiplies a `cols x cols`, a diagonal `min x min` and a `rows x rows` matrix: for a matrix that is not square an index
or a dimension assertion fails (`none`). -/
noncomputable def pinv {r c : ℕ} (mat : Matrix (Fin r) (Fin c) ℝ) : Option (Matrix (Fin c) (Fin r) ℝ) :=
  if h : r = c then
    let U := (e.svd mat).1
    let s := (e.svd mat).2.1
    let V := (e.svd mat).2.2
    some fun i j => ∑ k : Fin c, V i k * invertSv (s (k.cast (by omega))) * U j (k.cast h.symm)
  else none

/-! ### Lyapunov equation -/

section
variable {n : ℕ}

/-- One pass of the loop of `lyapunov` (lqr.hpp:45-49): column `i` from the columns to its right. `X j` is column `j`. With no column to the right
this is line 42. -/
noncomputable def lyapCol (T Q1 : Matrix (Fin n) (Fin n) ℝ) (i : Fin n) (X : Fin n → Fin n → ℝ) : Fin n → Fin n → ℝ :=
  Function.update X i (e.solve (T + T i i • (1 : Matrix (Fin n) (Fin n) ℝ)) fun r => Q1 r i - ∑ j : Fin n, if i < j then X j r * T i j else 0)

/-- The back-substitution, from the last column to the first (lqr.hpp:39-49). -/
noncomputable def backSub (T Q1 : Matrix (Fin n) (Fin n) ℝ) : Matrix (Fin n) (Fin n) ℝ :=
  fun r i => ((List.finRange n).foldr (lyapCol e T Q1) (fun _ _ => 0)) i r

/-- `lyapunov` (lqr.hpp:29-53, polymath.cpp:337-360) -/
noncomputable def lyapunov (A Q : Matrix (Fin n) (Fin n) ℝ) : Matrix (Fin n) (Fin n) ℝ :=
  let T := (e.schur A).1
  let U := (e.schur A).2
  U * backSub e T (Uᵀ * Q * U) * Uᵀ

/-! ### Line search -/

/-- The polynomial before the division by `c` (lqr.hpp:60). -/
def poly (a b c t : ℝ) : ℝ := a + t * (-2 * a + t * ((a - 2 * b) + t * (2 * b + t * c)))

/-- One pass of the loop over the roots (lqr.hpp:76-88); `p` is the divided polynomial, the state is the current minimiser. -/
noncomputable def lsCandidate (p : ℝ → ℝ) (arg root : ℝ) : ℝ :=
  if 1 / 10 ^ 5 ≤ root ∧ root ≤ 2 ∧ p root < p arg then root else arg

/-- `line_search_care` (lqr.hpp:55-90, polymath.cpp:462-497). `none`: division by zero (lines 61 and 62). -/
noncomputable def lineSearch (a b c : ℝ) : Option ℝ :=
  if c = 0 then none else
  let pd : Fin 4 → ℝ := ![1 / (4 * c) * (-2 * a), 1 / (4 * c) * (2 * (a - 2 * b)), 1 / (4 * c) * (6 * b), 1 / (4 * c) * (4 * c)]
  let p : ℝ → ℝ := fun t => 1 / c * poly a b c t
  let lb : ℝ := 1 / 10 ^ 5
  some ((e.roots pd).foldl (lsCandidate p) (if p lb < p 2 then lb else 2))

/-! ### Newton iteration -/

/-- `RX` (lqr.hpp:113-114) -/
def residual (A B C X : Matrix (Fin n) (Fin n) ℝ) : Matrix (Fin n) (Fin n) ℝ := C + (X * A + Aᵀ * X - X * B * X)

/-- `MatrixBase::norm` of a matrix: square root of the sum of squares -/
noncomputable def frob (X : Matrix (Fin n) (Fin n) ℝ) : ℝ := Real.sqrt (∑ i, ∑ j, X i j * X i j)

/-- The direction `H` (lqr.hpp:116) -/
noncomputable def direction (A B C X : Matrix (Fin n) (Fin n) ℝ) : Matrix (Fin n) (Fin n) ℝ :=
  lyapunov e (A - B * X)ᵀ (-residual A B C X)

/-- One pass of the loop (lqr.hpp:112-132): the new iterate, and `err`, which is the norm of the residual of the old one. -/
noncomputable def newtonStep (A B C X : Matrix (Fin n) (Fin n) ℝ) : Option (Matrix (Fin n) (Fin n) ℝ × ℝ) :=
  let R := residual A B C X
  let H := direction e A B C X
  let V := H * B * H
  match lineSearch e (R * R).trace (R * V).trace (V * V).trace with
  | none => none
  | some t => some (X + t • H, frob R)

/-- The loop (lqr.hpp:111-133) with `k` passes left, entered with `err > tol`. -/
noncomputable def newtonLoop (A B C : Matrix (Fin n) (Fin n) ℝ) : ℕ → Matrix (Fin n) (Fin n) ℝ → Option (Matrix (Fin n) (Fin n) ℝ)
  | 0, X => some X
  | k + 1, X => match newtonStep e A B C X with
    | none => none
    | some (X', err) => if 1 / 10 ^ 5 < err then newtonLoop A B C k X' else some X'

/-- `newton_ls_care` (lqr.hpp:93-142 with `kmax = 2`, polymath.cpp:364-407 with `kmax = 20`). `err` starts at the largest double. -/
noncomputable def newton (kmax : ℕ) (A B C X0 : Matrix (Fin n) (Fin n) ℝ) : Option (Matrix (Fin n) (Fin n) ℝ) := newtonLoop e A B C kmax X0

/-! ### Initial guess, CARE, LQR -/

/-- The shift computed at lqr.hpp:158-159 and polymath.cpp:424-425 (`minCoeff` of no entries is not modelled). -/
noncomputable def shift (TA : Matrix (Fin (n + 1)) (Fin (n + 1)) ℝ) : ℝ :=
  max (-(Finset.univ.inf' Finset.univ_nonempty (e.eigRe TA))) 0 + 1 / 2

/-- `init_newton_care` before the symmetry test (lqr.hpp:144-167, polymath.cpp:409-427); `β` is the shift used in the Lyapunov equation. -/
noncomputable def initRaw (β : ℝ) (A B : Matrix (Fin n) (Fin n) ℝ) : Option (Matrix (Fin n) (Fin n) ℝ) :=
  let TA := (e.schur A).1
  let U := (e.schur A).2
  let TD := Uᵀ * B
  let Z := lyapunov e (TA + β • (1 : Matrix (Fin n) (Fin n) ℝ)) ((2 : ℝ) • TD * TDᵀ)
  match pinv e Z with
  | none => none
  | some P => some (TDᵀ * P * Uᵀ)

/-- The rest of `init_newton_care` (lqr.hpp:169-174, polymath.cpp:429-434). -/
noncomputable def initSym (A B X : Matrix (Fin n) (Fin n) ℝ) : Matrix (Fin n) (Fin n) ℝ :=
  if 1 / 10 ^ 12 < frob (X - Xᵀ) then
    lyapunov e (A - B * X)ᵀ (-(Xᵀ * B * X + (1 / 2 : ℝ) • (1 : Matrix (Fin n) (Fin n) ℝ)))
  else X

/-- `init_newton_care` -/
noncomputable def initCare (β : ℝ) (A B : Matrix (Fin n) (Fin n) ℝ) : Option (Matrix (Fin n) (Fin n) ℝ) :=
  match initRaw e β A B with
  | none => none
  | some X => some (initSym e A B X)

end

/-- `care` of lqr.hpp (177-186): the Newton iteration is commented out; the shift is 100 (line 161). -/
noncomputable def careHeader {n : ℕ} (A B _C : Matrix (Fin n) (Fin n) ℝ) : Option (Matrix (Fin n) (Fin n) ℝ) := initCare e 100 A B

/-- `care` of polymath.cpp (455-460) -/
noncomputable def carePolymath {n : ℕ} (A B C : Matrix (Fin (n + 1)) (Fin (n + 1)) ℝ) : Option (Matrix (Fin (n + 1)) (Fin (n + 1)) ℝ) :=
  match initCare e (shift e (e.schur A).1) A B with
  | none => none
  | some X0 => newton e 20 A B C X0

section
variable {n m : ℕ}

/-- The positivity check (lqr.hpp:199-211): `some false` when an eigenvalue of `Q - M pinv(R) M'` has negative real part. -/
noncomputable def weightsOk (Q : Matrix (Fin n) (Fin n) ℝ) (R : Matrix (Fin m) (Fin m) ℝ) (M : Matrix (Fin n) (Fin m) ℝ) : Option Bool :=
  match pinv e R with
  | none => none
  | some P => open scoped Classical in some (decide (∀ i, 0 ≤ e.eigRe (Q - M * P * Mᵀ) i))

/-- The Riccati data formed by `lqr` (lqr.hpp:214-217, polymath.cpp:518-521): `A`, `B`, `C`. -/
def riccatiData (F : Matrix (Fin n) (Fin n) ℝ) (G : Matrix (Fin n) (Fin m) ℝ) (Q : Matrix (Fin n) (Fin n) ℝ) (P : Matrix (Fin m) (Fin m) ℝ)
    (M : Matrix (Fin n) (Fin m) ℝ) : Matrix (Fin n) (Fin n) ℝ × Matrix (Fin n) (Fin n) ℝ × Matrix (Fin n) (Fin n) ℝ :=
  (F - M * P * Gᵀ, G * P * Gᵀ, M * P * Mᵀ + Q)

/-- The gain (lqr.hpp:228, polymath.cpp:532) -/
def gain (G : Matrix (Fin n) (Fin m) ℝ) (P : Matrix (Fin m) (Fin m) ℝ) (M : Matrix (Fin n) (Fin m) ℝ) (S : Matrix (Fin n) (Fin n) ℝ) :
    Matrix (Fin m) (Fin n) ℝ := P * (Gᵀ * S + Mᵀ)

/-- `lqr` (lqr.hpp:193-229), yielding `S` and `K`. When the check fails an empty matrix is assigned to the references `S` and `K`, which cannot be
resized (`none`). -/
noncomputable def lqrHeader (F : Matrix (Fin n) (Fin n) ℝ) (G : Matrix (Fin n) (Fin m) ℝ) (Q : Matrix (Fin n) (Fin n) ℝ)
    (R : Matrix (Fin m) (Fin m) ℝ) (M : Matrix (Fin n) (Fin m) ℝ) (check : Bool) : Option (Matrix (Fin n) (Fin n) ℝ × Matrix (Fin m) (Fin n) ℝ) :=
  if check = true ∧ weightsOk e Q R M ≠ some true then none else
  match pinv e R with
  | none => none
  | some P =>
    let D := riccatiData F G Q P M
    match careHeader e D.1 D.2.1 D.2.2 with
    | none => none
    | some S => some (S, gain G P M S)

/-- What `oc::lqr` returns: the gain, or the empty matrix. -/
inductive Gain (n m : ℕ) where
  | rejected
  | gain (K : Matrix (Fin m) (Fin n) ℝ)

/-- `oc::lqr` (polymath.cpp:499-534) -/
noncomputable def lqrPolymath (F : Matrix (Fin (n + 1)) (Fin (n + 1)) ℝ) (G : Matrix (Fin (n + 1)) (Fin m) ℝ) (Q : Matrix (Fin (n + 1)) (Fin (n + 1)) ℝ)
    (R : Matrix (Fin m) (Fin m) ℝ) (M : Matrix (Fin (n + 1)) (Fin m) ℝ) (check : Bool) : Option (Gain (n + 1) m) :=
  match pinv e R with
  | none => none
  | some P =>
    if check = true ∧ weightsOk e Q R M ≠ some true then some .rejected else
    let D := riccatiData F G Q P M
    match carePolymath e D.1 D.2.1 D.2.2 with
    | none => none
    | some S => some (.gain (gain G P M S))

/-- `LinearSystem::is_controllable` (polymath.cpp:306-322): the matrix whose block `k` is `F^k G`; column `k * m + j`. -/
def ctrb (F : Matrix (Fin n) (Fin n) ℝ) (G : Matrix (Fin n) (Fin m) ℝ) : Matrix (Fin n) (Fin (n * m)) ℝ :=
  fun i q => (F ^ (q.val / m) * G) i ⟨q.val % m, Nat.mod_lt _ (Nat.pos_of_ne_zero (fun h => by subst h; exact absurd q.isLt (by simp)))⟩

/-- `is_controllable`: `FullPivLU::rank` is the rank. -/
def isControllable (rank : {r c : ℕ} → Matrix (Fin r) (Fin c) ℝ → ℕ) (F : Matrix (Fin n) (Fin n) ℝ) (G : Matrix (Fin n) (Fin m) ℝ) : Bool :=
  rank (ctrb F G) == n

end

end PolyMPC.Lqr
