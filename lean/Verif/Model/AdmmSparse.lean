import Verif.Model.Sparse
import Verif.Model.Admm
import Verif.Model.BoxAdmm

/-!
# The QP solvers on sparse data (src/solvers/admm.hpp, src/solvers/box_admm.hpp with `MatrixType == SPARSE`)

The templates share everything with the dense solvers except the assembly and the updates of `m_A` and `m_K`. The sparse matrices are
those of `Model/Sparse.lean`: uncompressed, which the code relies on because it reads `innerNonZeroPtr()`.
The fields `A`, `kkt` and `fact` of the dense state hold what the sparse members represent.
-/

namespace PolyMPC.Sparse.Csc
variable {K : Type}

/-- Where column `j` starts after room has been made in column `k` (`reserveInnerVectors`): column `k` gets room for at least two more
entries, and for as many as it has; the others keep theirs. -/
def grownStart (A : Csc K) (k j : ℕ) : ℕ :=
  ∑ i ∈ Finset.range j, (A.cnt i + max (if i = k then max 2 (A.cnt k) else 0) (A.start (i + 1) - A.start i - A.cnt i))

/-- The matrix, with `n` columns, after its entries have been moved to make room in column `k`. -/
def grow (A : Csc K) (n k : ℕ) : Csc K where
  start := A.grownStart k
  cnt := A.cnt
  idx p := match (List.range n).find? fun j => A.grownStart k j ≤ p ∧ p < A.grownStart k j + A.cnt j with
    | some j => A.idx (A.start j + (p - A.grownStart k j))
    | none => A.idx p
  val p := match (List.range n).find? fun j => A.grownStart k j ≤ p ∧ p < A.grownStart k j + A.cnt j with
    | some j => A.val (A.start j + (p - A.grownStart k j))
    | none => A.val p

/-- `insert(r, c) = v` in a matrix with `m` rows and `n` columns; room is made if the column is full. `none`: a failed assertion, because
the place is out of range or the entry exists. -/
def insertIn (A : Csc K) (m n r c : ℕ) (v : K) : Option (Csc K) :=
  if r < m ∧ c < n then if A.start c + A.cnt c < A.start (c + 1) then A.insert r c v else (A.grow n c).insert r c v
  else none

/-- `coeffRef(r, c) = v`: overwrites the entry or inserts it. -/
def coeffSet (m n : ℕ) (A : Csc K) (r c : ℕ) (v : K) : Option (Csc K) :=
  match (List.range (A.cnt c)).find? fun t => A.idx (A.start c + t) = r with
  | some t => some { A with val := Function.update A.val (A.start c + t) v }
  | none => A.insertIn m n r c v

/-- `coeffRef(r, c) += v`: a missing entry is inserted with value zero first. -/
def coeffRefAdd [Add K] [Zero K] (m n : ℕ) (A : Csc K) (r c : ℕ) (v : K) : Option (Csc K) :=
  match (List.range (A.cnt c)).find? fun t => A.idx (A.start c + t) = r with
  | some t => some { A with val := Function.update A.val (A.start c + t) (A.val (A.start c + t) + v) }
  | none => A.insertIn m n r c (0 + v)

/-- An element of `diagonal()` is assigned `v`; Eigen asserts that the entry exists. -/
def coeffPut (A : Csc K) (r c : ℕ) (v : K) : Option (Csc K) :=
  match (List.range (A.cnt c)).find? fun t => A.idx (A.start c + t) = r with
  | some t => some { A with val := Function.update A.val (A.start c + t) v }
  | none => none

end PolyMPC.Sparse.Csc

namespace PolyMPC.AdmmSparse
open Matrix PolyMPC.Spec PolyMPC.QPBase PolyMPC.Sparse PolyMPC.Sparse.Csc

variable {K : Type}

/-- The entries of a matrix with `n` columns in the order of the two loops of `block_insert_sparse`. -/
def entries (n : ℕ) (cols : ℕ → List (ℕ × K)) : List (ℕ × ℕ × K) := (List.range n).flatMap fun k => (cols k).map fun e => (e.1, k, e.2)

/-- `block_insert_sparse`, admm.hpp:341-350, box_admm.hpp:312-321; `dst` has `md` rows and `nd` columns, `src` has `n` columns.
`block_set_sparse` (admm.hpp:352-361, box_admm.hpp:323-332) is the same code. -/
def blockInsert (md nd : ℕ) (dst : Csc K) (ro co n : ℕ) (src : ℕ → List (ℕ × K)) : Option (Csc K) :=
  (entries n src).foldlM (fun A e => A.insertIn md nd (ro + e.1) (co + e.2.1) e.2.2) dst

/-- Columns of `A.transpose()` for `A` with `n` columns. -/
def transposeCols (A : Csc K) (n : ℕ) (k : ℕ) : List (ℕ × K) :=
  (List.range n).filterMap fun j => ((A.col j).find? fun e => e.1 = k).map fun e => (j, e.2)

/-- `construct_A` without `reuse_pattern`, admm.hpp:236-245. -/
def constructAFresh [One K] (N M : ℕ) (A old : Csc K) : Option (Csc K) :=
  (blockInsert (M + N) N (old.reserve fun c => 1 + A.cnt c) 0 0 N A.col).bind fun S =>
    (List.range N).foldlM (fun S i => S.coeffSet (M + N) N (i + M) i 1) S

/-- `construct_A` with `reuse_pattern`, admm.hpp:228-233. -/
def constructAReuse (N : ℕ) (A old : Csc K) : Option (Csc K) :=
  (List.range N).foldlM (fun S k => S.put N (S.start k) (A.cnt k) fun t => A.val (A.start k + t)) old

/-- `construct_A`, admm.hpp:224-247. -/
def constructA [One K] (reuse : Bool) (N M : ℕ) (A old : Csc K) : Option (Csc K) :=
  if reuse then constructAReuse N A old else constructAFresh N M A old

/-- The column sizes reserved in `construct_kkt_matrix_sparse`, admm.hpp:287-298, 363-371,
box_admm.hpp:246-257, 278-286. -/
def kktSizes (both : Bool) (N : ℕ) (H A : Csc K) (c : ℕ) : ℕ :=
  1 + (if c < N then H.cnt c + A.cnt c else 0) + (if both then ((entries N A.col).filter fun e => e.1 + N = c).length else 0)

/-- `construct_kkt_matrix_sparse` up to the diagonal, admm.hpp:280-310, box_admm.hpp:239-269, for a matrix `A` with `R` rows. -/
def kktFresh (both : Bool) (N R : ℕ) (H A old : Csc K) : Option (Csc K) :=
  (blockInsert (N + R) (N + R) (old.reserve (kktSizes both N H A)) 0 0 N H.col).bind fun S =>
  (blockInsert (N + R) (N + R) S N 0 N A.col).bind fun S =>
  if both then blockInsert (N + R) (N + R) S 0 N R (transposeCols A N) else some S

/-- `construct_kkt_matrix_same_pattern` up to the diagonal, admm.hpp:319-333, box_admm.hpp:289-303. `K` has `N + R` columns. The
transposed block is inserted at row `N`, column `0`. -/
def kktSame (both : Bool) (N R : ℕ) (H A old : Csc K) : Option (Csc K) :=
  ((List.range N).foldlM (fun (S : Csc K) k =>
    (S.put (N + R) (S.start k) (H.cnt k) fun t => H.val (H.start k + t)).bind fun (S : Csc K) =>
    S.put (N + R) (S.start k + H.cnt k) (A.cnt k) fun t => A.val (A.start k + t)) old).bind fun S =>
  if both then blockInsert (N + R) (N + R) S N 0 R (transposeCols A N) else some S

/-- `coeffRef(i, i) += s(i)` for the first `N` diagonal entries, admm.hpp:313-314, box_admm.hpp:272-273. -/
def addDiagRef [Add K] [Zero K] (N R : ℕ) (s : ℕ → K) (S : Csc K) : Option (Csc K) :=
  (List.range N).foldlM (fun S i => S.coeffRefAdd (N + R) (N + R) i i (s i)) S

/-- `coeffRef(N + i, N + i) = -d(i)` for the last `R` diagonal entries, admm.hpp:315-316, box_admm.hpp:274-275. -/
def setDiagRef [Neg K] (N R : ℕ) (d : ℕ → K) (S : Csc K) : Option (Csc K) :=
  (List.range R).foldlM (fun S i => S.coeffSet (N + R) (N + R) (N + i) (N + i) (-d i)) S

/-- `diagonal().head<N>() += s`, admm.hpp:337, box_admm.hpp:307-308, 457. -/
def addDiag [Add K] (N : ℕ) (s : ℕ → K) (S : Csc K) : Option (Csc K) := (List.range N).foldlM (fun S i => S.coeffAdd i i (s i)) S

/-- `diagonal().tail<R>() = -d`, admm.hpp:338, 497, box_admm.hpp:309, 458. -/
def setDiag [Neg K] (N R : ℕ) (d : ℕ → K) (S : Csc K) : Option (Csc K) := (List.range R).foldlM (fun S i => S.coeffPut (N + i) (N + i) (-d i)) S

variable [Field K] [LinearOrder K] [IsStrictOrderedRing K] {N M : ℕ}

/-- A vector over a stacked index as an array. -/
def stackVec (v : Fin M ⊕ Fin N → K) : ℕ → K := fun i =>
  if h : i < M then v (Sum.inl ⟨i, h⟩) else if h : i - M < N then v (Sum.inr ⟨i - M, h⟩) else 0

/-- A vector as an array. -/
def arr {n : ℕ} (v : Fin n → K) : ℕ → K := fun i => if h : i < n then v ⟨i, h⟩ else 0

/-- `construct_kkt_matrix`, admm.hpp:265-339; `d` is `m_rho_inv_vec`. -/
def admmKkt (reuse both : Bool) (N R : ℕ) (sigma : K) (d : ℕ → K) (H A old : Csc K) : Option (Csc K) :=
  if reuse then ((kktSame both N R H A old).bind (addDiag N fun _ => sigma)).bind (setDiag N R d)
  else ((kktFresh both N R H A old).bind (addDiagRef N R fun _ => sigma)).bind (setDiagRef N R d)

/-- `construct_kkt_matrix`, box_admm.hpp:225-310; `b` is `m_rho_vec_box`. -/
def boxKkt (reuse both : Bool) (N R : ℕ) (sigma : K) (b d : ℕ → K) (H A old : Csc K) : Option (Csc K) :=
  if reuse then (((kktSame both N R H A old).bind (addDiag N fun _ => sigma)).bind (addDiag N b)).bind (setDiag N R d)
  else ((kktFresh both N R H A old).bind (addDiagRef N R fun i => sigma + b i)).bind (setDiagRef N R d)

/-- A QP with sparse matrices. -/
structure SparseQP (K : Type) (N M : ℕ) where
  H : Csc K
  h : Fin N → K
  A : Csc K
  Alb : Fin M → K
  Aub : Fin M → K
  xlb : Fin N → K
  xub : Fin N → K

/-- The QP that sparse data represent. -/
def SparseQP.toQP (p : SparseQP K N M) : QP K N M :=
  { H := fun i j => p.H.coeff i j, h := p.h, A := fun i j => p.A.coeff i j, Alb := p.Alb, Aub := p.Aub, xlb := p.xlb, xub := p.xub }

/-! ### ADMM -/

/-- An `ADMM` object with sparse matrices. -/
structure Obj (K : Type) (N M : ℕ) where
  st : Admm.State K N M
  mA : Csc K
  mK : Csc K

/-- The matrix that `m_A` represents. -/
def matA (N M : ℕ) (S : Csc K) : Matrix (Fin M ⊕ Fin N) (Fin N) K := fun i j =>
  match i with
  | Sum.inl i => S.coeff i j
  | Sum.inr i => S.coeff (M + i) j

/-- The matrix that `m_K` represents. -/
def matK (N M : ℕ) (S : Csc K) : Admm.KktMat K N M := fun i j => S.coeff (Admm.kktPos i) (Admm.kktPos j)

/-- Everything before the loop, admm.hpp:117-138. -/
def setup (reuse both : Bool) (cfg : Settings K) (p : SparseQP K N M) (xGuess : Fin N → K) (yGuess : Fin M ⊕ Fin N → K) (old : Obj K N M) :
    Option (Obj K N M) :=
  (constructA reuse N M p.A old.mA).bind fun mA =>
  let s1 := { old.st with
    x := xGuess, y := yGuess, A := matA N M mA, z := matA N M mA *ᵥ xGuess
    constrType := parseConstr p.Alb p.Aub
    boxType := parseBox p.xlb p.xub }
  let s2 := Admm.rhoVecUpdate cfg.rho s1
  (admmKkt reuse both N (M + N) cfg.sigma (stackVec s2.rhoInvVec) p.H mA old.mK).map fun mK =>
  let s3 := Admm.factorise { s2 with kkt := matK N M mK }
  ⟨{ s3 with info := { s3.info with status := .UNSOLVED } }, mA, mK⟩

/-- `update_kkt_rho`, admm.hpp:495-499. -/
def updateKktRho (o : Obj K N M) : Option (Obj K N M) :=
  (setDiag N (M + N) (stackVec o.st.rhoInvVec) o.mK).map fun mK => { o with st := { o.st with kkt := matK N M mK }, mK := mK }

/-- The change of the step size, admm.hpp:187-200. -/
def adaptRho (sq : K → K) (cfg : Settings K) (o : Obj K N M) : Option (Obj K N M) :=
  let newRho := Admm.clampRho (Admm.estimateRho sq o.st o.st.rho)
  let st1 := { o.st with info := { o.st.info with rhoEstimate := newRho } }
  if newRho < o.st.rho / cfg.adaptiveRhoTolerance ∨ newRho > o.st.rho * cfg.adaptiveRhoTolerance then
    (updateKktRho { o with st := Admm.rhoVecUpdate newRho st1 }).map fun o => { o with st := Admm.factorise o.st }
  else some { o with st := st1 }

/-- One pass of the loop, admm.hpp:143-206. -/
def body (lin : Admm.KktMat K N M → (Admm.KktIdx N M → K) → (Admm.KktIdx N M → K)) (sq : K → K) (cfg : Settings K) (p : SparseQP K N M)
    (iter : ℤ) (o : Obj K N M) : Admm.StepResult (Obj K N M) :=
  let st1 := Admm.admmUpdate lin cfg p.toQP o.st
  let check := Admm.checkNow cfg iter
  let st2 := if check then Admm.residualsUpdate p.toQP st1 else st1
  if check && Admm.terminationCriteria cfg st2 then
    .brk { o with st := { st2 with info := { st2.info with status := .SOLVED } } }
  else if cfg.adaptiveRho then
    if cfg.adaptiveRhoInterval = 0 then .ub
    else if iter.tmod cfg.adaptiveRhoInterval = 0 then
      let st3 := if check then st2 else Admm.residualsUpdate p.toQP st2
      match adaptRho sq cfg { o with st := st3 } with
      | none => .ub
      | some o => .cont o
    else .cont { o with st := st2 }
  else .cont { o with st := st2 }

/-- The `for` loop, admm.hpp:141-206. -/
def loop (lin : Admm.KktMat K N M → (Admm.KktIdx N M → K) → (Admm.KktIdx N M → K)) (sq : K → K) (cfg : Settings K) (p : SparseQP K N M) :
    ℕ → ℤ → Obj K N M → Option (ℤ × Obj K N M)
  | 0, iter, o => some (iter, o)
  | n + 1, iter, o =>
    match body lin sq cfg p iter o with
    | .ub => none
    | .brk s => some (iter, s)
    | .cont s => loop lin sq cfg p n (iter + 1) s

/-- `solve_impl`, admm.hpp:112-213. `none`: undefined behaviour or a failed assertion. -/
def solve (reuse both : Bool) (lin : Admm.KktMat K N M → (Admm.KktIdx N M → K) → (Admm.KktIdx N M → K)) (sq : K → K) (cfg : Settings K)
    (p : SparseQP K N M) (xGuess : Fin N → K) (yGuess : Fin M ⊕ Fin N → K) (old : Obj K N M) : Option (Obj K N M) :=
  (setup reuse both cfg p xGuess yGuess old).bind fun o =>
  match loop lin sq cfg p cfg.maxIter.toNat 1 o with
  | none => none
  | some (iter, o) =>
    let st1 := if iter > cfg.maxIter then { o.st with info := { o.st.info with status := .MAX_ITER_EXCEEDED } } else o.st
    some { o with st := { st1 with info := { st1.info with iter := iter } } }

/-! ### boxADMM -/

/-- A `boxADMM` object with sparse matrices. -/
structure BoxObj (K : Type) (N M : ℕ) where
  st : BoxAdmm.State K N M
  mK : Csc K

/-- The matrix that `m_K` represents. -/
def boxMatK (N M : ℕ) (S : Csc K) : BoxAdmm.KktMat K N M := fun i j => S.coeff (BoxAdmm.kktPos i) (BoxAdmm.kktPos j)

/-- Everything before the loop, box_admm.hpp:93-112. -/
def boxSetup (reuse both : Bool) (cfg : Settings K) (p : SparseQP K N M) (xGuess : Fin N → K) (yGuess : Fin M ⊕ Fin N → K)
    (old : BoxObj K N M) : Option (BoxObj K N M) :=
  let s1 := { old.st with
    x := xGuess, y := yGuess, z := p.toQP.A *ᵥ xGuess, q := xGuess
    constrType := parseConstr p.Alb p.Aub
    boxType := parseBox p.xlb p.xub }
  let s2 := BoxAdmm.rhoVecUpdate cfg.rho s1
  (boxKkt reuse both N M cfg.sigma (arr s2.rhoVecBox) (arr s2.rhoInvVec) p.H p.A old.mK).map fun mK =>
  let s3 := BoxAdmm.factorise { s2 with kkt := boxMatK N M mK }
  ⟨{ s3 with info := { s3.info with status := .UNSOLVED } }, mK⟩

/-- `update_kkt_rho` (sparse), box_admm.hpp:454-459. -/
def boxUpdateKktRho (o : BoxObj K N M) : Option (BoxObj K N M) :=
  ((addDiag N (fun i => arr o.st.rhoVecBox i - arr o.st.rhoVecBoxPrev i) o.mK).bind (setDiag N M (arr o.st.rhoInvVec))).map fun mK =>
    { o with st := { o.st with kkt := boxMatK N M mK }, mK := mK }

/-- The change of the step size, box_admm.hpp:173-186. -/
def boxAdaptRho (sq : K → K) (cfg : Settings K) (o : BoxObj K N M) : Option (BoxObj K N M) :=
  let newRho := BoxAdmm.clampRho (BoxAdmm.estimateRho sq o.st o.st.rho)
  let st1 := { o.st with info := { o.st.info with rhoEstimate := newRho } }
  if newRho < o.st.rho / cfg.adaptiveRhoTolerance ∨ newRho > o.st.rho * cfg.adaptiveRhoTolerance then
    (boxUpdateKktRho { o with st := BoxAdmm.rhoVecUpdate newRho { st1 with rhoVecBoxPrev := st1.rhoVecBox } }).map fun o =>
      { o with st := BoxAdmm.factorise o.st }
  else some { o with st := st1 }

/-- One pass of the loop, box_admm.hpp:119-197. -/
def boxBody (lin : BoxAdmm.KktMat K N M → (BoxAdmm.KktIdx N M → K) → (BoxAdmm.KktIdx N M → K)) (sq : K → K) (cfg : Settings K)
    (p : SparseQP K N M) (iter : ℤ) (o : BoxObj K N M) : Admm.StepResult (BoxObj K N M) :=
  let st1 := BoxAdmm.admmUpdate lin cfg p.toQP o.st
  let check := BoxAdmm.checkNow cfg iter
  let st2 := if check then BoxAdmm.residualsUpdate p.toQP st1 else st1
  if check && BoxAdmm.terminationCriteria cfg st2 then
    .brk { o with st := { st2 with info := { st2.info with status := .SOLVED } } }
  else if cfg.adaptiveRho then
    if cfg.adaptiveRhoInterval = 0 then .ub
    else if iter.tmod cfg.adaptiveRhoInterval = 0 then
      let st3 := if check then st2 else BoxAdmm.residualsUpdate p.toQP st2
      match boxAdaptRho sq cfg { o with st := st3 } with
      | none => .ub
      | some o => .cont o
    else .cont { o with st := st2 }
  else .cont { o with st := st2 }

/-- The `for` loop, box_admm.hpp:117-197. -/
def boxLoop (lin : BoxAdmm.KktMat K N M → (BoxAdmm.KktIdx N M → K) → (BoxAdmm.KktIdx N M → K)) (sq : K → K) (cfg : Settings K)
    (p : SparseQP K N M) : ℕ → ℤ → BoxObj K N M → Option (ℤ × BoxObj K N M)
  | 0, iter, o => some (iter, o)
  | n + 1, iter, o =>
    match boxBody lin sq cfg p iter o with
    | .ub => none
    | .brk s => some (iter, s)
    | .cont s => boxLoop lin sq cfg p n (iter + 1) s

/-- `solve_impl`, box_admm.hpp:84-205. -/
def boxSolve (reuse both : Bool) (lin : BoxAdmm.KktMat K N M → (BoxAdmm.KktIdx N M → K) → (BoxAdmm.KktIdx N M → K)) (sq : K → K)
    (cfg : Settings K) (p : SparseQP K N M) (xGuess : Fin N → K) (yGuess : Fin M ⊕ Fin N → K) (old : BoxObj K N M) : Option (BoxObj K N M) :=
  (boxSetup reuse both cfg p xGuess yGuess old).bind fun o =>
  match boxLoop lin sq cfg p cfg.maxIter.toNat 1 o with
  | none => none
  | some (iter, o) =>
    let st1 := if iter > cfg.maxIter then { o.st with info := { o.st.info with status := .MAX_ITER_EXCEEDED } } else o.st
    some { o with st := { st1 with info := { st1.info with iter := iter } } }

end PolyMPC.AdmmSparse
