import Verif.Model.OcpSparse

/-!
# The older collocation classes

Model of `src/control/ode_collocation.hpp` (`ode_collocation`), `src/control/cost_collocation.hpp` (`cost_collocation`) and
`src/control/constraints_collocation.hpp` (`constraint_collocation`), dense format. Vectors and matrices are functions on natural numbers, as
in `Verif.Model.Ocp`, and all index arithmetic is the code's own.

The user functions are arbitrary functors. They write their result into a variable that they are handed, so each of them also receives the
old contents. They are handed states and controls (as one stacked vector here) and the parameters as plain numbers: these classes
differentiate with respect to states and controls only.

An object that was constructed from functors has uninitialised derivative seeds (and weights); reading them is undefined behaviour, which is
the outcome `none`. The loop `for(k = 0; k < VARX_SIZE; k += NX)` is written with the node number `t = k / NX`. In these classes
`NUM_NODES` is the number of nodes of one segment; `Dims.NN` is the number of nodes of all segments. `Dims.NG` is not used.
-/

namespace PolyMPC.OldColloc
open AD Ocp

variable {K : Type} [Field K]

/-- `NX + NU`, the number of derivatives, ode_collocation.hpp:60, cost_collocation.hpp:86. -/
def MU (d : Dims) : ℕ := d.NX + d.NU

/-- `(x_k, u_k)`: the segments at `k * NX` and `k * NU + VARX_SIZE`, e.g. ode_collocation.hpp:129. -/
def nodeXU (d : Dims) (var : ℕ → K) (k : ℕ) : Fin (MU d) → K := fun i =>
  if i.val < d.NX then var (k * d.NX + i) else var (k * d.NU + d.VARX + (i - d.NX))

/-- `var.segment<NP>(VARX_SIZE + VARU_SIZE)`, e.g. ode_collocation.hpp:130. -/
def par (d : Dims) (var : ℕ → K) : ℕ → K := fun i => var (d.VARX + d.VARU + i)

/-- `t_scale`, ode_collocation.hpp:124, 169, cost_collocation.hpp:148, 177, 239. -/
def tScale (d : Dims) (t0 tf : K) : K := (tf - t0) / ((2 * d.S : ℕ) : K)

/-- `kroneckerProduct(DM, E)` with the identity of size `n`, ode_collocation.hpp:100, 111. -/
def kronE (n : ℕ) (DM : ℕ → ℕ → K) : ℕ → ℕ → K := fun r c => if r % n = c % n then DM (r / n) (c / n) else 0

/-! ### ode_collocation -/

/-- A functor for the dynamics in its two instantiations. -/
structure Dyn (d : Dims) (K : Type) where
  plain : (Fin (MU d) → K) → (ℕ → K) → (ℕ → K) → ℕ → K
  ad : (Fin (MU d) → K) → (ℕ → K) → (ℕ → Dual (MU d) K) → ℕ → Dual (MU d) K

/-- The members, ode_collocation.hpp:65-66, 74-77. `seeded` says whether the derivatives of `m_ADx`, `m_ADu` have been set. -/
structure Ode (d : Dims) (K : Type) where
  f : Dyn d K
  diffMat : ℕ → ℕ → K
  seeded : Bool
  adY : ℕ → Dual (MU d) K

/-- `ode_collocation()`, ode_collocation.hpp:84-115: the functor is default constructed (`f0`); the matrix `DM` is the one that
`ContinuousOCP` computes as well (continuous_ocp.hpp:319-328). -/
def Ode.mk0 (d : Dims) (A : Approx K) (f0 : Dyn d K) (y0 : ℕ → Dual (MU d) K) : Ode d K :=
  ⟨f0, kronE d.NX (compositeD d A), true, y0⟩

/-- `ode_collocation(const Dynamics &_f){}`, ode_collocation.hpp:47: the body is empty, so the functor is default constructed all the same
and nothing else is set but the default member initialiser of `m_DiffMat` (77). -/
def Ode.mk1 (d : Dims) (f0 _f : Dyn d K) (y0 : ℕ → Dual (MU d) K) : Ode d K := ⟨f0, fun _ _ => 0, false, y0⟩

/-- `operator()`, ode_collocation.hpp:118-138. `v0`, `r0` are the uninitialised `value`, `f_res`. -/
def Ode.eval (d : Dims) (o : Ode d K) (var : ℕ → K) (t0 tf : K) (v0 r0 : ℕ → K) : ℕ → K :=
  let s := loop d.NN (fun t (s : (ℕ → K) × (ℕ → K)) =>
    let f := o.f.plain (nodeXU d var t) (par d var) s.1
    (f, setSeg s.2 (t * d.NX) d.NX f)) (r0, v0)
  fun i => -tScale d t0 tf * s.2 i + ∑ j ∈ Finset.range d.VARX, o.diffMat i j * var j

/-- `linearized`, ode_collocation.hpp:159-201: the matrix `A`, the vector `b` and the object after the call. -/
def Ode.linearized (d : Dims) (o : Ode d K) (var : ℕ → K) (t0 tf : K) (v0 : ℕ → K) : Option ((ℕ → ℕ → K) × (ℕ → K) × Ode d K) :=
  if o.seeded then
    let ts := tScale d t0 tf
    let s := loop d.NN (fun t (s : (ℕ → Dual (MU d) K) × (ℕ → K) × (ℕ → ℕ → K)) =>
      let y := o.f.ad (nodeXU d var t) (par d var) s.1
      let v := setSeg s.2.1 (t * d.NX) d.NX fun i => (y i).val
      let A := setBlock s.2.2 (t * d.NX) (t * d.NX) d.NX d.NX fun r m => -ts * derAt (y r) m
      let A := setBlock A (t * d.NX) (t * d.NU + d.VARX) d.NX d.NU fun r m => -ts * derAt (y r) (d.NX + m)
      (y, v, A)) (o.adY, v0, fun _ _ => 0)
    some (addBlock s.2.2 0 0 d.VARX d.VARX o.diffMat,
      fun i => ∑ j ∈ Finset.range d.VARX, o.diffMat i j * var j - ts * s.2.1 i, { o with adY := s.1 })
  else none

/-! ### constraint_collocation -/

/-- `generic_function`, constraints_collocation.hpp:147-188 (both overloads). `v0` is the old contents of the output, `r0` the uninitialised
`f_res`. -/
def genericFunction (d : Dims) (NY : ℕ) (func : (Fin (MU d) → K) → (ℕ → K) → (ℕ → K) → ℕ → K) (var v0 r0 : ℕ → K) : ℕ → K :=
  (loop d.NN (fun t (s : (ℕ → K) × (ℕ → K)) =>
    let f := func (nodeXU d var t) (par d var) s.1
    (f, setSeg s.2 (t * NY) NY f)) (r0, v0)).2

/-! ### cost_collocation -/

/-- The two functors in their three instantiations. The terminal cost is handed the states only. -/
structure CostCbs (d : Dims) (K : Type) where
  lag : (Fin (MU d) → K) → (ℕ → K) → K → K
  lagAD : (Fin (MU d) → K) → (ℕ → K) → Dual (MU d) K → Dual (MU d) K
  lagAD2 : (Fin (MU d) → K) → (ℕ → K) → Dual (MU d) (Dual (MU d) K) → Dual (MU d) (Dual (MU d) K)
  mayer : (Fin d.NX → K) → K → K
  mayerAD : (Fin d.NX → K) → Dual (MU d) K → Dual (MU d) K
  mayerAD2 : (Fin d.NX → K) → Dual (MU d) (Dual (MU d) K) → Dual (MU d) (Dual (MU d) K)

/-- The members, cost_collocation.hpp:91-92, 103-104, 116-120: `m_weights` and the derivative seeds are either both set or both
uninitialised. -/
structure Cost (d : Dims) (K : Type) where
  cb : CostCbs d K
  w : Option (ℕ → K)

/-- `cost_collocation()`, cost_collocation.hpp:124-130. -/
def Cost.mk0 (d : Dims) (A : Approx K) (cb0 : CostCbs d K) : Cost d K := ⟨cb0, some A.w⟩

/-- `cost_collocation(const LagrangeTerm &L, const MayerTerm &M){}`, cost_collocation.hpp:112. -/
def Cost.mk1 (d : Dims) (cb0 _cb : CostCbs d K) : Cost d K := ⟨cb0, none⟩

/-- `var.head<NX>()`, cost_collocation.hpp:142, 218, 296. -/
def headX (d : Dims) (var : ℕ → K) : Fin d.NX → K := fun i => var i

/-- The test for a node between two segments, cost_collocation.hpp:157, 201, 274. -/
def junction (d : Dims) (it : ℕ) : Bool := decide (it % d.N = 0) && decide (it ≠ 0) && decide (it < d.S * d.N)

/-- `operator()`, cost_collocation.hpp:133-164. -/
def Cost.eval (d : Dims) (o : Cost d K) (var : ℕ → K) (t0 tf : K) : Option K := o.w.map fun w =>
  let m := o.cb.mayer (headX d var) 0
  let ts := tScale d t0 tf
  (loop d.NN (fun it (s : K × K) =>
    let L := o.cb.lag (nodeXU d var it) (par d var) s.2
    let c := s.1 + ts * w (it % d.N) * L
    (if junction d it then c + ts * w (it % d.N) * L else c, L)) (0 + m, 0)).1

/-- `v.segment(a, n) *= 2`, cost_collocation.hpp:204-205, 277-278. -/
def dblSeg (v : ℕ → K) (a n : ℕ) : ℕ → K := fun i => if a ≤ i ∧ i < a + n then v i * 2 else v i

/-- `M.block(r0, c0, nr, nc) *= 2`, cost_collocation.hpp:280-283. -/
def dblBlock (M : ℕ → ℕ → K) (r0 c0 nr nc : ℕ) : ℕ → ℕ → K :=
  fun r c => if (r0 ≤ r ∧ r < r0 + nr) ∧ c0 ≤ c ∧ c < c0 + nc then M r c * 2 else M r c

/-- The gradient statements for one node, cost_collocation.hpp:197-206, 260-261, 277-278. -/
def gradNode (d : Dims) (v : ℕ → K) (it : ℕ) (coeff : K) (g : ℕ → K) : ℕ → K :=
  let v := setSeg v (it * d.NX) d.NX fun i => coeff * g i
  let v := setSeg v (it * d.NU + d.VARX) d.NU fun i => coeff * g (d.NX + i)
  if junction d it then dblSeg (dblSeg v (it * d.NX) d.NX) (it * d.NU + d.VARX) d.NU else v

/-- `value_gradient`, cost_collocation.hpp:167-225. `a0`, `m0` are the two uninitialised variables `ad_value`. -/
def Cost.valueGradient (d : Dims) (o : Cost d K) (var : ℕ → K) (t0 tf : K) (a0 m0 : Dual (MU d) K) : Option (K × (ℕ → K)) := o.w.map fun w =>
  let ts := tScale d t0 tf
  let s := loop d.NN (fun it (s : K × (ℕ → K) × Dual (MU d) K) =>
    let a := o.cb.lagAD (nodeXU d var it) (par d var) s.2.2
    let coeff := ts * w (it % d.N)
    let c := s.1 + coeff * a.val
    (if junction d it then c + coeff * a.val else c, gradNode d s.2.1 it coeff (derAt a), a)) ((0 : K), (fun _ => (0 : K)), a0)
  let m := o.cb.mayerAD (headX d var) m0
  (s.1 + m.val, addSeg s.2.1 0 (MU d) (derAt m))

/-- `hes.middleRows<1>(i) = ad_value.derivatives()(i).derivatives().transpose()`, cost_collocation.hpp:264-267, 301-304. -/
def hesRow {m : ℕ} (a : Dual m (Dual m K)) (i c : ℕ) : K := if h : i < m then derAt (a.der ⟨i, h⟩) c else 0

/-- The Hessian statements for one node, cost_collocation.hpp:268-271, 280-283. -/
def hessNode (d : Dims) (H : ℕ → ℕ → K) (it : ℕ) (coeff : K) (h : ℕ → ℕ → K) : ℕ → ℕ → K :=
  let x := it * d.NX
  let u := it * d.NU + d.VARX
  let H := setBlock H x x d.NX d.NX fun r m => coeff * h r m
  let H := setBlock H x u d.NX d.NU fun r m => coeff * h r (d.NX + m)
  let H := setBlock H u x d.NU d.NX fun r m => coeff * h (d.NX + r) m
  let H := setBlock H u u d.NU d.NU fun r m => coeff * h (d.NX + r) (d.NX + m)
  if junction d it then dblBlock (dblBlock (dblBlock (dblBlock H x x d.NX d.NX) x u d.NX d.NU) u x d.NU d.NX) u u d.NU d.NU else H

/-- `value_gradient_hessian`, cost_collocation.hpp:228-308. `a0`, `m0` are the two uninitialised variables `ad_value`. -/
def Cost.valueGradientHessian (d : Dims) (o : Cost d K) (var : ℕ → K) (t0 tf : K) (a0 m0 : Dual (MU d) (Dual (MU d) K)) :
    Option (K × (ℕ → K) × (ℕ → ℕ → K)) := o.w.map fun w =>
  let ts := tScale d t0 tf
  let s := loop d.NN (fun it (s : K × (ℕ → K) × (ℕ → ℕ → K) × Dual (MU d) (Dual (MU d) K)) =>
    let a := o.cb.lagAD2 (nodeXU d var it) (par d var) s.2.2.2
    let coeff := ts * w (it % d.N)
    let c := s.1 + coeff * a.val.val
    (if junction d it then c + coeff * a.val.val else c, gradNode d s.2.1 it coeff (derAt a.val),
      hessNode d s.2.2.1 it coeff (hesRow a), a)) ((0 : K), (fun _ => (0 : K)), (fun _ _ => (0 : K)), a0)
  let m := o.cb.mayerAD2 (headX d var) m0
  (s.1 + m.val.val, addSeg s.2.1 0 (MU d) (derAt m.val), addBlock s.2.2.1 0 0 (MU d) (MU d) (hesRow m))

end PolyMPC.OldColloc
