import Verif.Model.Ocp

/-!
# Symbolic Chebyshev transcription

Model of `src/chebyshev.hpp` (`Chebyshev`), `src/chebyshev_ms.hpp` (`MSChebyshev`) and `src/chebyshev_soft.hpp`
(`SoftChebyshev`).

A CasADi expression in the symbols `m_X`, `m_U`, `m_P`, `m_DT` is its value at given values of these symbols: `X`, `U`, `P`
are vectors (functions on natural numbers); the data `m_DT` are part of the CasADi functions. A `casadi::Function` with inputs
`(x, u)` or `(x, u, p, d)` is a function of the stacked vector `(x, u, p)`, as in `Model/Ocp.lean`.

Assumptions on CasADi: slices, `mtimes`, `kron`, `dot`, `vertcat`, `diagcat` as in mathematics; a slice whose end is not after
its start is empty; an empty argument of a function stands for zeros; calling a function with a wrong number of arguments
throws (`none`).

The member function `range` of the three classes is never called. The loops over the offsets `i += NX`, `j += NU` are written
with the node number.
-/

namespace PolyMPC.CasCheb
open Ocp

variable {K : Type} [Field K]

/-! ### Scheme, common to the three classes -/

section Scheme
open Real
/-- The vector `c` of `DiffMatrix`, chebyshev.hpp:183-184, chebyshev_ms.hpp:175-176, chebyshev_soft.hpp:185-186. -/
noncomputable def cVec (N i : ℕ) : ℝ := (-1) ^ i * (if i = 0 then 2 else if i < N then 1 else 2)

/-- `CollocPoints`, chebyshev.hpp:161-165. -/
noncomputable def points (N i : ℕ) : ℝ := cos (i * (π / N))

/-- `Dn`, chebyshev.hpp:185-187. -/
noncomputable def Dn (N i j : ℕ) : ℝ :=
  cVec N i * (1 / cVec N j) / (points N i - points N j + if i = j then 1 else 0)

/-- `DiffMatrix`, chebyshev.hpp:174-190: `sum1(Dn.T())` are the row sums of `Dn`. -/
noncomputable def diffMatrix (N i j : ℕ) : ℝ :=
  Dn N i j - if i = j then ∑ l ∈ Finset.range (N + 1), Dn N i l else 0

/-- The loops over `k` of `QuadWeights`, chebyshev.hpp:217-220, 227-230, for one angle. -/
noncomputable def quadLoop (θ : ℝ) (last : ℕ) : ℝ :=
  loop last (fun k v => v - 2 * cos (2 * ((k + 1 : ℕ) : ℝ) * θ) / (4 * ((k + 1 : ℕ) : ℝ) ^ 2 - 1)) 1

/-- `QuadWeights`, chebyshev.hpp:200-234. -/
noncomputable def quadWeights (N i : ℕ) : ℝ :=
  let θ := i * (π / N)
  if N % 2 = 0 then
    let v := quadLoop θ (N / 2 - 1) - cos (N * θ) / ((N : ℝ) ^ 2 - 1)
    if 1 ≤ i ∧ i < N then 2 * v / N else 1 / ((N : ℝ) ^ 2 - 1)
  else
    let v := quadLoop θ ((N - 1) / 2)
    if 1 ≤ i ∧ i < N then 2 * v / N else 1 / (N : ℝ) ^ 2

/-- The members `m_D`, `m_Points`, `m_QuadWeights`, chebyshev.hpp:117-119. -/
noncomputable def scheme (N : ℕ) : Approx ℝ := ⟨diffMatrix N, points N, quadWeights N⟩
end Scheme

/-- `kron(A, eye(n))`, chebyshev.hpp:274. -/
def kronEye (A : ℕ → ℕ → K) (n : ℕ) : ℕ → ℕ → K := fun r c => if r % n = c % n then A (r / n) (c / n) else 0

/-- `mtimes(M, v)` with `n` columns. -/
def mulVec (M : ℕ → ℕ → K) (n : ℕ) (v : ℕ → K) : ℕ → K := fun r => ∑ c ∈ Finset.range n, M r c * v c

/-- `CompDiff` before the Kronecker product, chebyshev.hpp:252-272. -/
def compCore (A : Approx K) (S N : ℕ) : ℕ → ℕ → K :=
  if S < 2 then A.D else
  let M0 : ℕ → ℕ → K := setBlock (fun _ _ => 0) ((S * N + 1) - (N + 1)) ((S * N + 1) - (N + 1)) (N + 1) (N + 1) A.D
  loop (S - 1) (fun k M => setBlock M (k * N) (k * N) N (N + 1) A.D) M0

/-- `CompDiffMatrix(DIM)`, chebyshev.hpp:247-275. -/
def compDiff (A : Approx K) (S N dim : ℕ) : ℕ → ℕ → K := kronEye (compCore A S N) dim

/-- Value of the slices `m_X(k * NX ...)`, `m_U(k * NU ...)` and of `m_P`, stacked. -/
def nodeXU (d : Dims) (X U P : ℕ → K) (k : ℕ) : Fin d.M → K := fun i =>
  if i.val < d.NX then X (k * d.NX + i) else
  if i.val < d.NX + d.NU then U (k * d.NU + (i - d.NX)) else P (i - d.NX - d.NU)

/-- `t_scale`, chebyshev.hpp:294. -/
def tScale (d : Dims) (t0 tf : K) : K := (tf - t0) / ((2 * d.S : ℕ) : K)

/-! ### `Chebyshev` -/

/-- The right-hand sides `F_XU`, chebyshev.hpp:290-313. -/
def rhs (d : Dims) (f : (Fin d.M → K) → ℕ → K) (t0 tf : K) (X U P : ℕ → K) : ℕ → K :=
  loop d.NN (fun k F => setSeg F (k * d.NX) d.NX fun i => tScale d t0 tf * f (nodeXU d X U P k) i) fun _ => 0

/-- `CollocateDynamics`, chebyshev.hpp:286-317. -/
def collocateDynamics (d : Dims) (A : Approx K) (f : (Fin d.M → K) → ℕ → K) (t0 tf : K) (X U P : ℕ → K) : ℕ → K :=
  fun r => mulVec (compDiff A d.S d.N d.NX) d.VARX X r - rhs d f t0 tf X U P r

/-- `collocate_dynamics(X, U, P)`, the function returned by `CollocateDynamics2`, chebyshev.hpp:470-510. `mX` is the value of the
member `m_X`, which the derivative is taken of (508). -/
def collocateDynamics2 (d : Dims) (A : Approx K) (f : (Fin d.M → K) → ℕ → K) (t0 tf : K) (mX X U P : ℕ → K) : ℕ → K :=
  fun r => mulVec (compDiff A d.S d.N d.NX) d.VARX mX r - rhs d f t0 tf X U P r

/-- The Lagrange part of `CollocateCost` and `CollocateParametricCost`, chebyshev.hpp:347-362, 392-408. -/
def lagrangePart (d : Dims) (A : Approx K) (l : (Fin d.M → K) → K) (t0 tf : K) (X U P : ℕ → K) : K :=
  loop d.S (fun s acc => acc + tScale d t0 tf *
    loop (d.N + 1) (fun m loc => loc + A.w m * l (nodeXU d X U P (s * d.N + m))) 0) 0

/-- `CollocateCost` and `CollocateParametricCost`, chebyshev.hpp:327-365, 375-412; `none` is a null function. The Mayer term is handed
the state of the first node and, in the second function, the parameters. -/
def collocateCost (d : Dims) (A : Approx K) (mayer : Option ((ℕ → K) → (ℕ → K) → K)) (l : Option ((Fin d.M → K) → K)) (t0 tf : K)
    (X U P : ℕ → K) : K :=
  (match mayer with | none => 0 | some m => m X P) + (match l with | none => 0 | some l => lagrangePart d A l t0 tf X U P)

/-- `v(Slice(a, b))`: length and entries; nothing unless the end is after the start. -/
def slice (v : ℕ → K) (a b : ℕ) : ℕ × (ℕ → K) := if a < b then (b - a, fun i => v (a + i)) else (0, fun _ => 0)

/-- A vector argument of length `n`: an empty argument stands for zeros, another length throws. -/
def argVec (n : ℕ) (v : ℕ × (ℕ → K)) : Option (ℕ → K) := if v.1 = n then some v.2 else if v.1 = 0 then some fun _ => 0 else none

/-- `CollocateIdCost`, chebyshev.hpp:423-459, chebyshev_soft.hpp:434-470. `data` is the stacked data matrix, `rows`, `cols` its size;
with a wrong size the cost is zero (427-431). The data slice is `_data(Slice(idx, idx - NX))` (449-450). -/
def collocateIdCost (d : Dims) (A : Approx K) (l : (ℕ → K) → (ℕ → K) → K) (rows cols : ℕ) (data : ℕ → K) (t0 tf : K) (X : ℕ → K) :
    Option K :=
  if rows ≠ d.NX ∨ cols ≠ d.NN then some 0 else
  loop d.S (fun s acc => do
    let a ← acc
    let loc ← loop (d.N + 1) (fun m loc => do
      let c ← loc
      let idx := d.VARX - (s * d.N + m) * d.NX
      let y ← argVec d.NX (slice data idx (idx - d.NX))
      some (c + A.w m * l (fun i => X ((s * d.N + m) * d.NX + i)) y)) (some 0)
    some (a + tScale d t0 tf * loc)) (some 0)

/-- A CasADi function of `(x, u)` or `(x, u, p, d)`: number of inputs, number of entries of its output, value. -/
structure Fn (d : Dims) (K : Type) where
  nIn : ℕ
  n : ℕ
  val : (Fin d.M → K) → ℕ → K

/-- Number of arguments that the classes pass: 2 if there are no parameters and no data, else 4; e.g. chebyshev.hpp:537-547. -/
def nArgs (d : Dims) (ND : ℕ) : ℕ := if d.NP = 0 ∧ ND = 0 then 2 else 4

/-- `CollocateFunction`, chebyshev.hpp:523-555, chebyshev_soft.hpp:480-508. -/
def collocateFunction (d : Dims) (ND : ℕ) (g : Fn d K) (X U P : ℕ → K) : Option (ℕ → K) :=
  if g.nIn ≠ nArgs d ND then none else
  some (loop d.NN (fun k F => setSeg F (k * g.n) g.n (g.val (nodeXU d X U P k))) fun _ => 0)

/-- `DifferentiateFunction`, chebyshev.hpp:566-578, chebyshev_soft.hpp:519-530. -/
def differentiateFunction (d : Dims) (ND : ℕ) (A : Approx K) (g : Fn d K) (order : ℕ) (X U P : ℕ → K) : Option (ℕ → K) := do
  let F ← collocateFunction d ND g X U P
  some (loop order (fun _ v => mulVec (compDiff A d.S d.N g.n) (d.NN * g.n) v) F)

/-! ### `SoftChebyshev` -/

/-- `SoftChebyshev::CollocateDynamics`, chebyshev_soft.hpp:284-328. -/
def softDynamics (d : Dims) (A : Approx K) (f : (Fin d.M → K) → ℕ → K) (t0 tf : K) (X U P : ℕ → K) : K :=
  let DX := mulVec (compDiff A d.S d.N d.NX) d.VARX X
  loop d.S (fun s acc => acc + tScale d t0 tf *
    loop (d.N + 1) (fun m loc =>
      let e : ℕ → K := fun i => DX ((s * d.N + m) * d.NX + i) - tScale d t0 tf * f (nodeXU d X U P (s * d.N + m)) i
      loc + A.w m * ∑ i ∈ Finset.range d.NX, e i * e i) 0) 0

/-! ### `MSChebyshev` -/

namespace MS

/-- `_NUM_COLLOC_PTS_X`, chebyshev_ms.hpp:57. -/
def NPX (d : Dims) : ℕ := d.S * (d.N + 1)
/-- `_X_END_IDX`, `_U_END_IDX`, `_P_START_IDX`, `_P_END_IDX`, chebyshev_ms.hpp:60-66. -/
def xEnd (d : Dims) : ℕ := NPX d * d.NX
def uEnd (d : Dims) : ℕ := xEnd d + d.S * d.NU
def pStart (d : Dims) : ℕ := uEnd d
def pEnd (d : Dims) (ND : ℕ) : ℕ := pStart d + ND

/-- `CompDiff`, chebyshev_ms.hpp:246-261: `diagcat` of `S` copies of `D`. -/
def compCore (A : Approx K) (S N : ℕ) : ℕ → ℕ → K :=
  if S < 2 then A.D else fun r c => if r / (N + 1) = c / (N + 1) then A.D (r % (N + 1)) (c % (N + 1)) else 0

/-- `CompDiffMatrix(DIM)`, chebyshev_ms.hpp:244-264. -/
def compDiff (A : Approx K) (S N dim : ℕ) : ℕ → ℕ → K := kronEye (compCore A S N) dim

/-- Slices of state node `i` of segment `j` and of the control of segment `j`, chebyshev_ms.hpp:285-291. -/
def nodeXU (d : Dims) (X U P : ℕ → K) (j i : ℕ) : Fin d.M → K := fun a =>
  if a.val < d.NX then X (j * (d.N + 1) * d.NX + i * d.NX + a) else
  if a.val < d.NX + d.NU then U (j * d.NU + (a - d.NX)) else P (a - d.NX - d.NU)

/-- `F_XU`, chebyshev_ms.hpp:277-296. -/
def rhs (d : Dims) (f : (Fin d.M → K) → ℕ → K) (t0 tf : K) (X U P : ℕ → K) : ℕ → K :=
  loop d.S (fun j F => loop (d.N + 1) (fun i F =>
    setSeg F (j * (d.N + 1) * d.NX + i * d.NX) d.NX fun a => tScale d t0 tf * f (nodeXU d X U P j i) a) F) fun _ => 0

/-- `CollocateDynamics`, chebyshev_ms.hpp:273-311: first the collocation residuals, then `vertcat` of the gaps at the junctions. -/
def collocateDynamics (d : Dims) (A : Approx K) (f : (Fin d.M → K) → ℕ → K) (t0 tf : K) (X U P : ℕ → K) : ℕ → K :=
  loop (d.S - 1) (fun j G =>
    let start := j * (d.N + 1) * d.NX + d.N * d.NX
    setSeg G (xEnd d + j * d.NX) d.NX fun i => X (start + i) - X (start + d.NX + i))
    fun r => mulVec (compDiff A d.S d.N d.NX) (xEnd d) X r - rhs d f t0 tf X U P r

/-- `CollocateCost` and `CollocateParametricCost`, chebyshev_ms.hpp:317-354, 364-400. -/
def collocateCost (d : Dims) (A : Approx K) (mayer : Option ((ℕ → K) → (ℕ → K) → K)) (l : Option ((Fin d.M → K) → K)) (t0 tf : K)
    (X U P : ℕ → K) : K :=
  (match mayer with | none => 0 | some m => m X P) + (match l with
    | none => 0
    | some l => loop d.S (fun j acc => acc + tScale d t0 tf *
      loop (d.N + 1) (fun i loc => loc + A.w i * l (nodeXU d X U P j i)) 0) 0)

/-- `CollocateFunction`, chebyshev_ms.hpp:411-482: length and entries. `dep` is the answer of `depends_on(res, x)`. -/
def collocateFunction (d : Dims) (ND : ℕ) (g : Fn d K) (dep : Bool) (X U P : ℕ → K) : Option (ℕ × (ℕ → K)) :=
  if g.nIn ≠ nArgs d ND then none else
  if dep then
    some (NPX d * g.n, loop d.S (fun j F => loop (d.N + 1) (fun i F =>
      setSeg F ((j * (d.N + 1) + i) * g.n) g.n (g.val (nodeXU d X U P j i))) F) fun _ => 0)
  else
    some (d.S * g.n, loop d.S (fun j F => setSeg F (j * g.n) g.n (g.val fun a =>
      if a.val < d.NX then X a else if a.val < d.NX + d.NU then U (j * d.NU + (a - d.NX)) else P (a - d.NX - d.NU))) fun _ => 0)

/-- `DifferentiateFunction`, chebyshev_ms.hpp:495-585: length and entries. For a function of the control alone only order 1 is
admitted (575) and the result is the difference of neighbouring controls (576-578). -/
def differentiateFunction (d : Dims) (ND : ℕ) (A : Approx K) (g : Fn d K) (dep : Bool) (order : ℕ) (X U P : ℕ → K) :
    Option (ℕ × (ℕ → K)) := do
  let F ← collocateFunction d ND g dep X U P
  if dep then some (F.1, loop order (fun _ v => mulVec (compDiff A d.S d.N g.n) (NPX d * g.n) v) F.2) else
  if order ≠ 1 then none else
  some ((d.S - 1) * d.NU, loop (d.S - 1) (fun i v => setSeg v (i * d.NU) d.NU fun a => U ((i + 1) * d.NU + a) - U (i * d.NU + a)) fun _ => 0)

end MS

end PolyMPC.CasCheb
