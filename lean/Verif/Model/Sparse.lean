import Mathlib.Algebra.BigOperators.Fin
import Mathlib.Algebra.Field.Basic

/-!
# Sparse matrices as the transcription uses them

The parts of `Eigen::SparseMatrix` (column major, uncompressed) that `src/control/continuous_ocp.hpp` relies on. Eigen is an external
dependency, so these definitions are assumptions about it, not a model of code in /repo. The arrays are the ones the code accesses
directly: `outerIndexPtr()`, `innerNonZeroPtr()`, `innerIndexPtr()` and `valuePtr()`.
-/

namespace PolyMPC.Sparse

/-- An uncompressed column-major sparse matrix: column `c` owns the slots `start c, …, start (c+1) - 1`, of which the first `cnt c`
are in use; slot `p` holds a row number and a value. -/
structure Csc (K : Type) where
  start : ℕ → ℕ
  cnt : ℕ → ℕ
  idx : ℕ → ℕ
  val : ℕ → K

namespace Csc
variable {K : Type}

/-- `nonZeros()` of an uncompressed matrix with `n` columns. -/
def nonZeros (A : Csc K) (n : ℕ) : ℕ := ∑ c ∈ Finset.range n, A.cnt c

/-- Entries of a column in the order of `InnerIterator`. -/
def col (A : Csc K) (c : ℕ) : List (ℕ × K) := (List.range (A.cnt c)).map fun t => (A.idx (A.start c + t), A.val (A.start c + t))

/-- `coeff(r, c)`: the stored value, or zero. -/
def coeff [Zero K] (A : Csc K) (r c : ℕ) : K :=
  match (A.col c).find? fun e => e.1 = r with
  | some e => e.2
  | none => 0

/-- `reserve(sizes)` on a matrix without entries. The contents of the slots are left as they are. -/
def reserve (A : Csc K) (sizes : ℕ → ℕ) : Csc K where
  start c := ∑ i ∈ Finset.range c, sizes i
  cnt _ := 0
  idx := A.idx
  val := A.val

/-- The shifting loop of `insertUncompressed`: `while(p > startId && index(p-1) > r) { slot p = slot p-1; --p; }`. -/
def shift (lo r : ℕ) : ℕ → (ℕ → ℕ) → (ℕ → K) → (ℕ → ℕ) × (ℕ → K) × ℕ
  | 0, idx, val => (idx, val, 0)
  | p + 1, idx, val =>
    if lo < p + 1 ∧ r < idx p then
      shift lo r p (Function.update idx (p + 1) (idx p)) (Function.update val (p + 1) (val p))
    else (idx, val, p + 1)

/-- `insert(r, c) = v`. `none` if the column is full (Eigen would reallocate, which the code says it does not expect) or the entry
exists already (an assertion). -/
def insert (A : Csc K) (r c : ℕ) (v : K) : Option (Csc K) :=
  if A.start c + A.cnt c < A.start (c + 1) then
    let s := shift (A.start c) r (A.start c + A.cnt c) A.idx A.val
    if A.start c < s.2.2 ∧ s.1 (s.2.2 - 1) = r then none
    else some { A with
      cnt := Function.update A.cnt c (A.cnt c + 1)
      idx := Function.update s.1 s.2.2 r
      val := Function.update s.2.1 s.2.2 v }
  else none

/-- `copy_n(f, n, valuePtr() + a)`; `none` if it leaves the storage of a matrix with `m` columns. -/
def put (A : Csc K) (m a n : ℕ) (f : ℕ → K) : Option (Csc K) :=
  if a + n ≤ A.start m then
    some { A with val := fun p => if a ≤ p ∧ p < a + n then f (p - a) else A.val p }
  else none

/-- `transform(valuePtr() + a, valuePtr() + a + n, f, valuePtr() + a, plus)`. -/
def add [Add K] (A : Csc K) (m a n : ℕ) (f : ℕ → K) : Option (Csc K) :=
  if a + n ≤ A.start m then
    some { A with val := fun p => if a ≤ p ∧ p < a + n then A.val p + f (p - a) else A.val p }
  else none

/-- `coeffRef(r, c) += v` for an existing entry; `none` if there is none. -/
def coeffAdd [Add K] (A : Csc K) (r c : ℕ) (v : K) : Option (Csc K) :=
  match (List.range (A.cnt c)).find? fun t => A.idx (A.start c + t) = r with
  | some t => some { A with val := Function.update A.val (A.start c + t) (A.val (A.start c + t) + v) }
  | none => none

/-- Sum of two sorted columns. -/
def mergeAdd [Add K] : List (ℕ × K) → List (ℕ × K) → List (ℕ × K)
  | [], m => m
  | a :: l, [] => a :: l
  | a :: l, b :: m =>
    if a.1 < b.1 then a :: mergeAdd l (b :: m)
    else if b.1 < a.1 then b :: mergeAdd (a :: l) m
    else (a.1, a.2 + b.2) :: mergeAdd l m
termination_by l m => l.length + m.length

/-- `leftCols(n) = B` where `B` has the given columns: the entries are written one after the other from the first slot on, and the
start and number of entries of these columns are set accordingly. `none` if the slots of the first `n` columns do not suffice (Eigen
would reallocate). -/
def setLeft (A : Csc K) (n : ℕ) (B : ℕ → List (ℕ × K)) : Option (Csc K) :=
  let L := (List.range n).flatMap B
  if L.length ≤ A.start n then
    some {
      start := fun c => if c < n then ((List.range c).flatMap B).length else A.start c
      cnt := fun c => if c < n then (B c).length else A.cnt c
      idx := fun p => if h : p < L.length then L[p].1 else A.idx p
      val := fun p => if h : p < L.length then L[p].2 else A.val p }
  else none

/-- `leftCols(n) += B`. -/
def addLeft [Add K] (A : Csc K) (n : ℕ) (B : ℕ → List (ℕ × K)) : Option (Csc K) :=
  A.setLeft n fun c => mergeAdd (A.col c) (B c)

/-- One write access to a sparse matrix with `m` columns. -/
inductive Op (K : Type)
  | ins (r c : ℕ) (v : K)
  | put (c off n : ℕ) (f : ℕ → K)
  | add (c off n : ℕ) (f : ℕ → K)

/-- Executing an access; `put` and `add` start at `outerIndexPtr()[c] + off`. -/
def Op.run [Add K] (m : ℕ) (o : Op K) (A : Csc K) : Option (Csc K) :=
  match o with
  | .ins r c v => A.insert r c v
  | .put c off n f => A.put m (A.start c + off) n f
  | .add c off n f => A.add m (A.start c + off) n f

/-- Executing accesses one after the other. -/
def runOps [Add K] (m : ℕ) (l : List (Op K)) (A : Csc K) : Option (Csc K) := l.foldlM (fun A o => o.run m A) A

end Csc
end PolyMPC.Sparse
