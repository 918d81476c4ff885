import Mathlib.Algebra.BigOperators.Fin
import Mathlib.Algebra.Field.Basic
import Mathlib.Algebra.Order.Ring.Defs
import Verif.Model.AutoDiff
import Verif.Model.Chebyshev

/-!
# Transcription of an optimal control problem

Model of `src/control/continuous_ocp.hpp` (`ContinuousOCP`), dense format. Vectors and matrices are functions on natural
numbers and all index arithmetic is the code's own. Block writes change exactly the addressed range.

The user callbacks are arbitrary functions. A callback writes its result into a variable that it is handed, so each one also
receives the old contents; the default implementations of `lagrange_term_impl`, `mayer_term_impl` and
`inequality_constraints_impl` (lines 205-216, 246-257, 277-288) return the old contents unchanged.

Simplifications: the state, control and parameter arguments of a callback are handed over as one stacked vector
`(x, u, p)` of length `NX + NU + NP`; the static parameters `d` are part of the callback. The members `m_ad_x`, `m_ad_u`,
`m_ad_p` are seeded once (691-735) and afterwards only their values are assigned, so an AD callback is a function of the
stacked point. The loop `for(k = 0; k < VARX_SIZE; k += NX)` is written with the node number `t = k / NX`.
-/

namespace PolyMPC.Ocp
open AD

/-- `NX, NU, NP, NG` of the problem, `NUM_SEGMENTS = S` and `POLY_ORDER = N` of the approximation; continuous_ocp.hpp:69-98. -/
structure Dims where
  NX : ℕ
  NU : ℕ
  NP : ℕ
  NG : ℕ
  S : ℕ
  N : ℕ

namespace Dims
variable (d : Dims)
/-- `NUM_NODES = NUM_SEGMENTS * POLY_ORDER + 1`, chebyshev.hpp and legendre.hpp enums, used at continuous_ocp.hpp:79. -/
def NN : ℕ := d.S * d.N + 1
/-- continuous_ocp.hpp:82 -/
def VARX : ℕ := d.NX * d.NN
/-- continuous_ocp.hpp:83 -/
def VARU : ℕ := d.NU * d.NN
/-- continuous_ocp.hpp:88 -/
def VAR : ℕ := d.VARX + d.VARU + d.NP
/-- continuous_ocp.hpp:89 -/
def NEQ : ℕ := d.VARX
/-- continuous_ocp.hpp:90 -/
def NINEQ : ℕ := d.NG * d.NN
/-- `NX + NU + NP`, number of derivatives of the AD type, continuous_ocp.hpp:124 -/
def M : ℕ := d.NX + d.NU + d.NP
end Dims

/-- `for(i = 0; i < n; ++i) s = f(i, s);` -/
def loop {σ : Type*} (n : ℕ) (f : ℕ → σ → σ) (s : σ) : σ :=
  match n with
  | 0 => s
  | n + 1 => f n (loop n f s)

section Blocks
variable {K : Type*}
/-- `v.segment(a, n) = w` -/
def setSeg (v : ℕ → K) (a n : ℕ) (w : ℕ → K) : ℕ → K := fun i => if a ≤ i ∧ i < a + n then w (i - a) else v i
/-- `v.segment(a, n) += w` -/
def addSeg [Add K] (v : ℕ → K) (a n : ℕ) (w : ℕ → K) : ℕ → K :=
  fun i => if a ≤ i ∧ i < a + n then v i + w (i - a) else v i
/-- `M.block(r0, c0, nr, nc) = B` -/
def setBlock (M : ℕ → ℕ → K) (r0 c0 nr nc : ℕ) (B : ℕ → ℕ → K) : ℕ → ℕ → K :=
  fun r c => if (r0 ≤ r ∧ r < r0 + nr) ∧ c0 ≤ c ∧ c < c0 + nc then B (r - r0) (c - c0) else M r c
/-- `M.block(r0, c0, nr, nc) += B` -/
def addBlock [Add K] (M : ℕ → ℕ → K) (r0 c0 nr nc : ℕ) (B : ℕ → ℕ → K) : ℕ → ℕ → K :=
  fun r c => if (r0 ≤ r ∧ r < r0 + nr) ∧ c0 ≤ c ∧ c < c0 + nc then M r c + B (r - r0) (c - c0) else M r c
end Blocks

variable {K : Type} [Field K]

/-- The collocation data held by the object, continuous_ocp.hpp:162-164. -/
structure Approx (K : Type) where
  D : ℕ → ℕ → K
  nodes : ℕ → K
  w : ℕ → K

/-- The collocation data with the Chebyshev scheme, continuous_ocp.hpp:162-164. -/
noncomputable def chebApprox (N : ℕ) : Approx ℝ where
  D i j := if h : i < N + 1 ∧ j < N + 1 then Cheb.diffMatrix N ⟨i, h.1⟩ ⟨j, h.2⟩ else 0
  nodes i := if h : i < N + 1 then Cheb.nodes N ⟨i, h⟩ else 0
  w i := if h : i < N + 1 then Cheb.intWeights N ⟨i, h⟩ else 0

/-- The user supplied functions in the three scalar types: plain, first-order AD, second-order AD. -/
structure Cbs (d : Dims) (K : Type) where
  dyn : (Fin d.M → K) → K → (ℕ → K) → ℕ → K
  dynAD : (Fin d.M → K) → K → (ℕ → Dual d.M K) → ℕ → Dual d.M K
  dynAD2 : (Fin d.M → K) → K → (ℕ → Dual d.M (Dual d.M K)) → ℕ → Dual d.M (Dual d.M K)
  ineq : (Fin d.M → K) → K → (ℕ → K) → ℕ → K
  ineqAD : (Fin d.M → K) → K → (ℕ → Dual d.M K) → ℕ → Dual d.M K
  ineqAD2 : (Fin d.M → K) → K → (ℕ → Dual d.M (Dual d.M K)) → ℕ → Dual d.M (Dual d.M K)
  lag : (Fin d.M → K) → K → K → K
  lagAD : (Fin d.M → K) → K → Dual d.M K → Dual d.M K
  lagAD2 : (Fin d.M → K) → K → Dual d.M (Dual d.M K) → Dual d.M (Dual d.M K)
  mayer : (Fin d.M → K) → K → K → K
  mayerAD : (Fin d.M → K) → K → Dual d.M K → Dual d.M K
  mayerAD2 : (Fin d.M → K) → K → Dual d.M (Dual d.M K) → Dual d.M (Dual d.M K)

/-- The mutable members: time limits and grid (145-165) and the AD variables that callbacks write (131-142). -/
structure Obj (d : Dims) (K : Type) where
  tStart : K
  tStop : K
  time : ℕ → K
  adY : ℕ → Dual d.M K
  adG : ℕ → Dual d.M K
  adCost : Dual d.M K
  ad2Cost : Dual d.M (Dual d.M K)

/-- `derivatives()(i)` -/
def derAt {m : ℕ} {S : Type} [Zero S] (x : Dual m S) (i : ℕ) : S := if h : i < m then x.der ⟨i, h⟩ else 0

/-- `(x_k, u_k, p)`: the segments at `k * NX`, `k * NU + VARX_SIZE` and `VARX_SIZE + VARU_SIZE`, e.g. continuous_ocp.hpp:759-760. -/
def node (d : Dims) (var : ℕ → K) (k : ℕ) : Fin d.M → K := fun i =>
  if i.val < d.NX then var (k * d.NX + i) else
  if i.val < d.NX + d.NU then var (k * d.NU + d.VARX + (i - d.NX)) else
  var (d.VARX + d.VARU + (i - d.NX - d.NU))

/-! ### Time grid -/

/-- `set_time_limits`, continuous_ocp.hpp:147-159; the constructor runs the same statements (49-55). -/
def setTimeLimits (d : Dims) (A : Approx K) (o : Obj d K) (t0 tf : K) : Obj d K :=
  let len := (tf - t0) / (d.S : K)
  let shift := len / 2
  let grid := loop d.S (fun i tn => setSeg tn (i * d.N) (d.N + 1)
    fun j => len / 2 * A.nodes (d.N - j) + (t0 + shift + (i : K) * len)) o.time
  { o with tStart := t0, tStop := tf, time := fun k => grid (d.NN - 1 - k) }

/-! ### Constraints -/

/-- `t_scale`, e.g. continuous_ocp.hpp:744 -/
def tScale (d : Dims) (o : Obj d K) : K := (o.tStop - o.tStart) / ((2 * d.S : ℕ) : K)

/-- `DX`, continuous_ocp.hpp:747-751; `junk` is its uninitialised storage. `lox(c, n) = var(n * NX + c)`. -/
def diffX (d : Dims) (A : Approx K) (var : ℕ → K) (junk : ℕ → ℕ → K) : ℕ → ℕ → K :=
  loop d.S (fun s DX => setBlock DX (s * d.N) 0 (d.N + 1) d.NX
    fun r c => ∑ j ∈ Finset.range (d.N + 1), A.D r j * var ((s * d.N + j) * d.NX + c)) junk

/-- `equalities`, continuous_ocp.hpp:739-766. `c0` is the old contents of the output. -/
def equalities (d : Dims) (A : Approx K) (cb : Cbs d K) (o : Obj d K) (junk : ℕ → ℕ → K) (var c0 : ℕ → K) : ℕ → K :=
  let DX := diffX d A var junk
  (loop d.NN (fun t (s : (ℕ → K) × (ℕ → K)) =>
    let f := cb.dyn (node d var t) (o.time t) s.1
    let c := setSeg s.2 (t * d.NX) d.NX fun i => DX t i
    (f, addSeg c (t * d.NX) d.NX fun i => -(tScale d o * f i))) (fun _ => 0, c0)).2

/-- `inequalities`, continuous_ocp.hpp:770-782. -/
def inequalities (d : Dims) (cb : Cbs d K) (o : Obj d K) (var c0 : ℕ → K) : ℕ → K :=
  (loop d.NN (fun k (s : (ℕ → K) × (ℕ → K)) =>
    let g := cb.ineq (node d var k) (o.time k) s.1
    (g, setSeg s.2 (k * d.NG) d.NG g)) (fun _ => 0, c0)).2

/-- `constraints`, continuous_ocp.hpp:786-792: `head<NUM_EQ>` and `tail<NUM_INEQ>` of one vector. -/
def constraints (d : Dims) (A : Approx K) (cb : Cbs d K) (o : Obj d K) (junk : ℕ → ℕ → K) (var c0 : ℕ → K) : ℕ → K :=
  let e := setSeg c0 0 d.NEQ (equalities d A cb o junk var c0)
  setSeg e d.NEQ d.NINEQ (inequalities d cb o var fun i => e (d.NEQ + i))

/-- The differentiation-matrix part of the dense Jacobian, continuous_ocp.hpp:802, 816-846. -/
def denseDiffPart (d : Dims) (A : Approx K) : ℕ → ℕ → K :=
  let J := loop d.S (fun s J => loop d.N (fun i J => loop (d.N + 1) (fun j J =>
      let shift := s * d.N * d.NX
      setBlock J (shift + i * d.NX) (shift + j * d.NX) d.NX d.NX fun r c => if r = c then A.D i j else 0) J) J)
    fun _ _ => 0
  setBlock J (d.VARX - d.NX) (d.VARX - d.NX * (d.N + 1)) d.NX (d.NX * (d.N + 1))
    fun r c => -J (d.NX - 1 - r) (d.NX * (d.N + 1) - 1 - c)

/-- `equalities_linearised`, dense, continuous_ocp.hpp:797-878: constraint values, Jacobian and the object after the call. -/
def equalitiesLin (d : Dims) (A : Approx K) (cb : Cbs d K) (o : Obj d K) (junk : ℕ → ℕ → K) (var c0 : ℕ → K) :
    (ℕ → K) × (ℕ → ℕ → K) × Obj d K :=
  let ts := tScale d o
  let DX := diffX d A var junk
  let s := loop d.NN (fun t (s : (ℕ → Dual d.M K) × (ℕ → K) × (ℕ → ℕ → K)) =>
    let y := cb.dynAD (node d var t) (o.time t) s.1
    let c := setSeg s.2.1 (t * d.NX) d.NX fun i => -ts * (y i).val
    let c := addSeg c (t * d.NX) d.NX fun i => DX t i
    let J := addBlock s.2.2 (t * d.NX) (t * d.NX) d.NX d.NX fun r m => -(ts * derAt (y r) m)
    let J := addBlock J (t * d.NX) (t * d.NU + d.VARX) d.NX d.NU fun r m => -(ts * derAt (y r) (d.NX + m))
    let J := addBlock J (t * d.NX) (d.VARX + d.VARU) d.NX d.NP fun r m => -(ts * derAt (y r) (d.NX + d.NU + m))
    (y, c, J)) (o.adY, c0, denseDiffPart d A)
  (s.2.1, s.2.2, { o with adY := s.1 })

/-- `_inequalities_linearised_dense`, continuous_ocp.hpp:546-575 (and 534-544 when there are none: nothing happens). -/
def inequalitiesLin (d : Dims) (cb : Cbs d K) (o : Obj d K) (var c0 : ℕ → K) : (ℕ → K) × (ℕ → ℕ → K) × Obj d K :=
  let s := loop d.NN (fun k (s : (ℕ → Dual d.M K) × (ℕ → K) × (ℕ → ℕ → K)) =>
    let g := cb.ineqAD (node d var k) (o.time k) s.1
    let c := setSeg s.2.1 (k * d.NG) d.NG fun i => (g i).val
    let J := setBlock s.2.2 (k * d.NG) (k * d.NX) d.NG d.NX fun r m => derAt (g r) m
    let J := setBlock J (k * d.NG) (k * d.NU + d.VARX) d.NG d.NU fun r m => derAt (g r) (d.NX + m)
    let J := setBlock J (k * d.NG) (d.VARX + d.VARU) d.NG d.NP fun r m => derAt (g r) (d.NX + d.NU + m)
    (g, c, J)) (o.adG, c0, fun _ _ => 0)
  (s.2.1, s.2.2, { o with adG := s.1 })

/-- `constraints_linearised`, dense, continuous_ocp.hpp:1137-1144. -/
def constraintsLin (d : Dims) (A : Approx K) (cb : Cbs d K) (o : Obj d K) (junk : ℕ → ℕ → K) (var c0 : ℕ → K) (J0 : ℕ → ℕ → K) :
    (ℕ → K) × (ℕ → ℕ → K) × Obj d K :=
  let e := equalitiesLin d A cb o junk var c0
  let c := setSeg c0 0 d.NEQ e.1
  let J := setBlock J0 0 0 d.NEQ d.VAR e.2.1
  let g := inequalitiesLin d cb e.2.2 var fun i => c (d.NEQ + i)
  (setSeg c d.NEQ d.NINEQ g.1, setBlock J d.NEQ 0 d.NINEQ d.VAR g.2.1, g.2.2)

/-! ### Cost -/

/-- `cost`, continuous_ocp.hpp:1182-1207. -/
def cost (d : Dims) (A : Approx K) (cb : Cbs d K) (o : Obj d K) (var : ℕ → K) : K :=
  let s := loop d.S (fun s st => loop (d.N + 1) (fun k (st : K × K) =>
    let ci := cb.lag (node d var (k + s * d.N)) (o.time (k + s * d.N)) st.2
    (st.1 + tScale d o * A.w k * ci, ci)) st) (0, 0)
  s.1 + cb.mayer (node d var 0) (o.time 0) 0

/-- The three statements `cost_gradient.segment<NX>(k * NX) += c * g.head<NX>()` and so on for `u` and `p`,
e.g. continuous_ocp.hpp:1231-1236. -/
def addNode (d : Dims) (v : ℕ → K) (k : ℕ) (c : K) (g : ℕ → K) : ℕ → K :=
  let v := addSeg v (k * d.NX) d.NX fun i => c * g i
  let v := addSeg v (k * d.NU + d.VARX) d.NU fun i => c * g (d.NX + i)
  addSeg v (d.VAR - d.NP) d.NP fun i => c * g (d.NX + d.NU + i)

/-- `cost_gradient`, continuous_ocp.hpp:1210-1249. Only `value()` of `m_ad_cost` is cleared before the loop (1220). -/
def costGradient (d : Dims) (A : Approx K) (cb : Cbs d K) (o : Obj d K) (var : ℕ → K) : K × (ℕ → K) × Obj d K :=
  let ts := tScale d o
  let s := loop d.S (fun s st => loop (d.N + 1) (fun k (st : K × (ℕ → K) × Dual d.M K) =>
    let a := cb.lagAD (node d var (k + s * d.N)) (o.time (k + s * d.N)) st.2.2
    (st.1 + ts * A.w k * a.val, addNode d st.2.1 (k + s * d.N) (ts * A.w k) (derAt a), a)) st)
    ((0 : K), (fun _ => (0 : K)), (⟨0, o.adCost.der⟩ : Dual d.M K))
  let m := cb.mayerAD (node d var 0) (o.time 0) ⟨0, fun _ => 0⟩
  (s.1 + m.val, addNode d s.2.1 0 1 (derAt m), { o with adCost := m })

/-- The nine statements that add a node Hessian to the big one, e.g. continuous_ocp.hpp:1305-1325. -/
def addNode2 (d : Dims) (H : ℕ → ℕ → K) (k : ℕ) (c : K) (h : ℕ → ℕ → K) : ℕ → ℕ → K :=
  let P := d.VARX + d.VARU
  let H := addBlock H (k * d.NX) (k * d.NX) d.NX d.NX fun r m => c * h r m
  let H := addBlock H (k * d.NX) (k * d.NU + d.VARX) d.NX d.NU fun r m => c * h r (d.NX + m)
  let H := addBlock H (k * d.NU + d.VARX) (k * d.NX) d.NU d.NX fun r m => c * h (d.NX + r) m
  let H := addBlock H (k * d.NU + d.VARX) (k * d.NU + d.VARX) d.NU d.NU fun r m => c * h (d.NX + r) (d.NX + m)
  let H := addBlock H (k * d.NX) P d.NX d.NP fun r m => c * h r (d.NX + d.NU + m)
  let H := addBlock H (k * d.NU + d.VARX) P d.NU d.NP fun r m => c * h (d.NX + r) (d.NX + d.NU + m)
  let H := addBlock H P (k * d.NX) d.NP d.NX fun r m => c * h (d.NX + d.NU + r) m
  let H := addBlock H P (k * d.NU + d.VARX) d.NP d.NU fun r m => c * h (d.NX + d.NU + r) (d.NX + m)
  addBlock H (d.VAR - d.NP) (d.VAR - d.NP) d.NP d.NP fun r m => c * h (d.NX + d.NU + r) (d.NX + d.NU + m)

/-- `hes.col(i) = a.derivatives()(i).derivatives()`, continuous_ocp.hpp:1298-1301. -/
def hesOf {m : ℕ} (a : Dual m (Dual m K)) (r i : ℕ) : K := if h : i < m then derAt (a.der ⟨i, h⟩) r else 0

/-- The Mayer part of the dense Hessian, continuous_ocp.hpp:1352-1366. The parameter block is added to
`bottomLeftCorner<NP, NP>` and read from there (1354). -/
def addMayer2 (d : Dims) (H : ℕ → ℕ → K) (h : ℕ → ℕ → K) : ℕ → ℕ → K :=
  let P := d.VARX + d.VARU
  let H := addBlock H 0 0 d.NX d.NX fun r m => h r m
  let H := addBlock H d.VARX d.VARX d.NU d.NU fun r m => h (d.NX + r) (d.NX + m)
  let H := addBlock H (d.VAR - d.NP) 0 d.NP d.NP fun r m => h (d.NX + d.NU + r) m
  let H := addBlock H 0 d.VARX d.NX d.NU fun r m => h r (d.NX + m)
  let H := addBlock H d.VARX 0 d.NU d.NX fun r m => h (d.NX + r) m
  let H := addBlock H 0 P d.NX d.NP fun r m => h r (d.NX + d.NU + m)
  let H := addBlock H P 0 d.NP d.NX fun r m => h (d.NX + d.NU + r) m
  let H := addBlock H d.VARX P d.NU d.NP fun r m => h (d.NX + r) (d.NX + d.NU + m)
  addBlock H P d.VARX d.NP d.NU fun r m => h (d.NX + d.NU + r) (d.NX + m)

/-- Clearing `value().value()` of `m_ad2_cost`, continuous_ocp.hpp:1273. -/
def clearVal {m : ℕ} (a : Dual m (Dual m K)) : Dual m (Dual m K) := ⟨⟨0, a.val.der⟩, a.der⟩

/-- Seeds of `ad2_scalar_t mayer_cost(0)`, continuous_ocp.hpp:1331. -/
def zero2 (m : ℕ) : Dual m (Dual m K) := ⟨⟨0, fun _ => 0⟩, fun _ => ⟨0, fun _ => 0⟩⟩

/-- `cost_gradient_hessian`, dense, continuous_ocp.hpp:1256-1367. `none` stands for the failing range assertion of
`var.segment<NX>(VARX_SIZE)(i)` with `i < NU` (1335). The block `bottomLeftCorner<NP, NP>` (1354) is in range because
`NP ≤ VAR_SIZE` and `NP ≤ NX + NU + NP`. -/
def costGradientHessian (d : Dims) (A : Approx K) (cb : Cbs d K) (o : Obj d K) (var : ℕ → K) :
    Option (K × (ℕ → K) × (ℕ → ℕ → K) × Obj d K) :=
  let ts := tScale d o
  let s := loop d.S (fun s st => loop (d.N + 1) (fun k (st : K × (ℕ → K) × (ℕ → ℕ → K) × Dual d.M (Dual d.M K)) =>
    let a := cb.lagAD2 (node d var (k + s * d.N)) (o.time (k + s * d.N)) st.2.2.2
    (st.1 + ts * A.w k * a.val.val, addNode d st.2.1 (k + s * d.N) (ts * A.w k) (derAt a.val),
      addNode2 d st.2.2.1 (k + s * d.N) (ts * A.w k) (hesOf a), a)) st)
    ((0 : K), (fun _ => (0 : K)), (fun _ _ => (0 : K)), clearVal o.ad2Cost)
  if 0 < d.NU ∧ (d.NX < d.NU ∨ d.VAR < d.VARX + d.NX) then none else
  let m := cb.mayerAD2 (node d var 0) (o.time 0) (zero2 d.M)
  some (s.1 + m.val.val, addNode d s.2.1 0 1 (derAt m.val), addMayer2 d s.2.2.1 (hesOf m), { o with ad2Cost := s.2.2.2 })

/-! ### Lagrangian -/

/-- `lagrangian(var, p, lam, L, g)`, continuous_ocp.hpp:1925-1935 (the overload at 1909-1922 computes the same sum). -/
def lagrangian (d : Dims) (A : Approx K) (cb : Cbs d K) (o : Obj d K) (junk : ℕ → ℕ → K) (var lam c0 : ℕ → K) : K :=
  let g := constraints d A cb o junk var c0
  cost d A cb o var + (∑ i ∈ Finset.range (d.NEQ + d.NINEQ), g i * lam i
    + ∑ i ∈ Finset.range d.VAR, var i * lam (d.NEQ + d.NINEQ + i))

/-- `lagrangian_gradient`, dense, continuous_ocp.hpp:1960-1975: Lagrangian value (which is only the cost), its gradient, the
cost gradient, constraints, Jacobian, object. -/
def lagrangianGradient (d : Dims) (A : Approx K) (cb : Cbs d K) (o : Obj d K) (junk : ℕ → ℕ → K) (var lam c0 : ℕ → K)
    (J0 : ℕ → ℕ → K) : K × (ℕ → K) × (ℕ → K) × (ℕ → K) × (ℕ → ℕ → K) × Obj d K :=
  let cg := costGradient d A cb o var
  let cl := constraintsLin d A cb cg.2.2 junk var c0 J0
  let lg : ℕ → K := fun c => ∑ i ∈ Finset.range (d.NEQ + d.NINEQ), cl.2.1 i c * lam i
  (cg.1, fun c => lg c + cg.2.1 c + lam (d.NEQ + d.NINEQ + c), cg.2.1, cl.1, cl.2.1, cl.2.2)

/-- The Hessian part of `lagrangian_gradient_hessian`, dense, continuous_ocp.hpp:2116-2173: `H0` is the (scaled) cost Hessian,
`xd0`, `g0` the uninitialised local AD vectors. -/
def addConstraintHessian (d : Dims) (cb : Cbs d K) (o : Obj d K) (var lam : ℕ → K) (xd0 g0 : ℕ → Dual d.M (Dual d.M K))
    (H0 : ℕ → ℕ → K) : ℕ → ℕ → K :=
  (loop d.NN (fun k (st : (ℕ → Dual d.M (Dual d.M K)) × (ℕ → Dual d.M (Dual d.M K)) × (ℕ → ℕ → K)) =>
    let xd := cb.dynAD2 (node d var k) (o.time k) st.1
    let g := cb.ineqAD2 (node d var k) (o.time k) st.2.1
    let hes : ℕ → ℕ → K := loop d.NX (fun n h r i => h r i + -lam (n + k * d.NX) * tScale d o * hesOf (xd n) r i) fun _ _ => 0
    let hes := loop d.NG (fun n h r i => h r i + lam (n + k * d.NG + d.NEQ) * hesOf (g n) r i) hes
    (xd, g, addNode2 d st.2.2 k 1 hes)) (xd0, g0, H0)).2.2

/-- `lagrangian_gradient_hessian`, dense, continuous_ocp.hpp:2100-2174: cost, Lagrangian gradient, Lagrangian Hessian, object. -/
def lagrangianGradientHessian (d : Dims) (A : Approx K) (cb : Cbs d K) (o : Obj d K) (junk : ℕ → ℕ → K) (var lam c0 : ℕ → K)
    (J0 : ℕ → ℕ → K) (xd0 g0 : ℕ → Dual d.M (Dual d.M K)) (costScale : K) : Option (K × (ℕ → K) × (ℕ → ℕ → K) × Obj d K) := do
  let cg ← costGradientHessian d A cb o var
  let cl := constraintsLin d A cb cg.2.2.2 junk var c0 J0
  let lg : ℕ → K := fun c => ∑ i ∈ Finset.range (d.NEQ + d.NINEQ), cl.2.1 i c * lam i
  some (cg.1, fun c => lg c + cg.2.1 c + lam (d.NEQ + d.NINEQ + c),
    addConstraintHessian d cb cl.2.2 var lam xd0 g0 (fun r c => costScale * cg.2.2.1 r c), cl.2.2)

/-! ### Callbacks written as expressions -/

/-- A callback component: not written at all, or assigned an expression of `(x, u, p)`. -/
inductive Cmd (m : ℕ)
  | skip
  | assign (e : Expr m)

/-- Running a component with any scalar type. -/
noncomputable def Cmd.run {m : ℕ} {S : Type} [Ops S] (c : Cmd m) (env : Fin m → S) (old : S) : S :=
  match c with
  | .skip => old
  | .assign e => e.eval env

/-- Source of the callbacks: components may depend on time. -/
structure Src (d : Dims) where
  dyn : ℝ → ℕ → Cmd d.M
  ineq : ℝ → ℕ → Cmd d.M
  lag : ℝ → Cmd d.M
  mayer : ℝ → Cmd d.M

/-- The three instantiations of the callback templates, with the seeds of continuous_ocp.hpp:691-735. -/
noncomputable def Src.cbs {d : Dims} (s : Src d) : Cbs d ℝ where
  dyn z t old i := (s.dyn t i).run z (old i)
  dynAD z t old i := (s.dyn t i).run (seed z) (old i)
  dynAD2 z t old i := (s.dyn t i).run (seed2 z) (old i)
  ineq z t old i := (s.ineq t i).run z (old i)
  ineqAD z t old i := (s.ineq t i).run (seed z) (old i)
  ineqAD2 z t old i := (s.ineq t i).run (seed2 z) (old i)
  lag z t old := (s.lag t).run z old
  lagAD z t old := (s.lag t).run (seed z) old
  lagAD2 z t old := (s.lag t).run (seed2 z) old
  mayer z t old := (s.mayer t).run z old
  mayerAD z t old := (s.mayer t).run (seed z) old
  mayerAD2 z t old := (s.mayer t).run (seed2 z) old

end PolyMPC.Ocp
