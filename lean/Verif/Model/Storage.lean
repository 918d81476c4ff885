import Mathlib.Data.Nat.Basic
import Mathlib.Logic.Function.Basic
import Verif.Model.Ocp

/-!
# Storage of dense matrices

Model of `dense_matrix_type_selector` (src/utils/helpers.hpp:23-31) and of the *sizes* of all dense objects in the dense
versions of `ADMM` (src/solvers/admm.hpp), `boxADMM` (src/solvers/box_admm.hpp), `SQPBase` (src/solvers/sqp_base.hpp) and
`ContinuousOCP` (src/control/continuous_ocp.hpp). The other models of these classes describe values and take every object to have its
nominal size; here only sizes are kept, and an operation on objects of unsuitable size is a failure.

A program is a command of a small language. Its basic commands are the Eigen operations of the code:

* default construction: a fixed-size object has its size, a dynamic one is empty;
* assignment to an object: resizes a dynamic object, requires equal sizes for a fixed one;
* writing through `Eigen::Ref`, a block, or with `+=`, `-=`: never resizes, requires equal sizes;
* blocks, corners, `head`, `tail`, coefficients: must lie inside (Eigen asserts it; undefined behaviour with `NDEBUG`);
* `T::Constant(value)` with one argument: does not compile when `T` is a dynamic type.

Branches and loops whose outcome depends on values are left open: both branches are possible and a loop runs any number of times. The
fixed-size temporaries of the transcription (`DX`, `hes`, `jac`, `m_D`, `m_quad_weights`, `time_nodes`, the AD variables) are literals of
their size. Writing `e += f` reads both sides, so it is the same as `e = f` through a `Ref`. Scalars and `static_parameter_t` (a fixed-size
type, continuous_ocp.hpp:119) have no size to check. The products of the template arguments are computed in `int` by the code and are natural
numbers here.
-/

namespace PolyMPC.Storage
open Ocp (Dims)

/-- Types of dense Eigen objects: `Matrix<S, r, c>`, `Matrix<S, Dynamic, 1>`, `Matrix<S, Dynamic, Dynamic>`. -/
inductive Ty
  | fixed (r c : ℕ)
  | dynCol
  | dynMat
  deriving DecidableEq

/-- `dense_matrix_type_selector<Scalar, Rows, Cols>::type` for given dimensions, helpers.hpp:23-31; `size` is `sizeof(Scalar)`, `limit` is
`EIGEN_STACK_ALLOCATION_LIMIT`. -/
def select (limit size rows cols : ℕ) : Ty :=
  if rows * cols * size < limit then .fixed rows cols else if cols = 1 then .dynCol else .dynMat

/-- `check_static_allocation_size` of Eigen (library): a fixed-size object larger than the limit does not compile; limit 0 switches the check
off. -/
def Ty.Accepted (limit size : ℕ) : Ty → Prop
  | .fixed r c => limit = 0 ∨ r * c * size ≤ limit
  | _ => True

/-- Size of a default-constructed object. -/
def Ty.initial : Ty → ℕ × ℕ
  | .fixed r c => (r, c)
  | .dynCol => (0, 1)
  | .dynMat => (0, 0)

/-- Sizes an object (or a `Ref`) of the type can have. -/
def Ty.admits : Ty → ℕ × ℕ → Bool
  | .fixed r c, z => z = (r, c)
  | .dynCol, z => z.2 = 1
  | .dynMat, _ => true

/-- `RowsAtCompileTime == Dynamic` -/
def Ty.isDynamic : Ty → Bool
  | .fixed _ _ => false
  | _ => true

/-- Number of turns of `for(i = 0; i < T::RowsAtCompileTime; i++)`; `Dynamic` is `-1`. -/
def Ty.rowsAtCompileTime : Ty → ℕ
  | .fixed r _ => r
  | _ => 0

/-- Expressions. `corner bottom right` covers `topLeftCorner`, …, `head` and `tail`; `rows` covers `topRows` and `bottomRows`. -/
inductive Exp (V : Type)
  | var (v : V)
  | lit (r c : ℕ)
  | block (e : Exp V) (i j r c : ℕ)
  | corner (e : Exp V) (bottom right : Bool) (r c : ℕ)
  | rows (e : Exp V) (bottom : Bool) (r : ℕ)
  | sum (a b : Exp V)
  | prod (a b : Exp V)
  | trans (a : Exp V)
  | diag (a : Exp V)
  | asDiag (a : Exp V)

namespace Exp
variable {V : Type}
/-- `e.head<n>()` -/
abbrev head (e : Exp V) (n : ℕ) : Exp V := .corner e false false n 1
/-- `e.tail<n>()` -/
abbrev tail (e : Exp V) (n : ℕ) : Exp V := .corner e true false n 1
/-- `e.segment<n>(i)` -/
abbrev seg (e : Exp V) (i n : ℕ) : Exp V := .block e i 0 n 1
/-- `e(i)` -/
abbrev at' (e : Exp V) (i : ℕ) : Exp V := .block e i 0 1 1

/-- The size of an expression; `none`: a size assertion of Eigen fails. -/
def size (σ : V → ℕ × ℕ) : Exp V → Option (ℕ × ℕ)
  | .var v => some (σ v)
  | .lit r c => some (r, c)
  | .block e i j r c => (size σ e).bind fun z => if i + r ≤ z.1 ∧ j + c ≤ z.2 then some (r, c) else none
  | .corner e _ _ r c => (size σ e).bind fun z => if r ≤ z.1 ∧ c ≤ z.2 then some (r, c) else none
  | .rows e _ r => (size σ e).bind fun z => if r ≤ z.1 then some (r, z.2) else none
  | .sum a b => (size σ a).bind fun y => (size σ b).bind fun z => if y = z then some y else none
  | .prod a b => (size σ a).bind fun y => (size σ b).bind fun z => if y.2 = z.1 then some (y.1, z.2) else none
  | .trans a => (size σ a).bind fun z => some (z.2, z.1)
  | .diag a => (size σ a).bind fun z => some (min z.1 z.2, 1)
  | .asDiag a => (size σ a).bind fun z => if z.2 = 1 then some (z.1, z.1) else none
end Exp

/-- Eigen operations. -/
inductive Basic (V : Type)
  /-- evaluate an expression -/
  | read (e : Exp V)
  /-- `l = e`, `l += e`, … where `l` is a `Ref` or a part of an object -/
  | write (l e : Exp V)
  /-- `v = e` for an object `v` -/
  | assign (v : V) (e : Exp V)
  /-- definition of a local object -/
  | declare (v : V)
  /-- `v = T::Constant(value)` with the type of `v` -/
  | fill (v : V)
  /-- binding of an expression to a parameter of type `Ref<t>` -/
  | pass (e : Exp V) (t : Ty)

/-- Effect of an operation on the sizes; `none` is a failure. -/
def Basic.run {V : Type} [DecidableEq V] (ty : V → Ty) (σ : V → ℕ × ℕ) : Basic V → Option (V → ℕ × ℕ)
  | .read e => (e.size σ).bind fun _ => some σ
  | .write l e => (l.size σ).bind fun y => (e.size σ).bind fun z => if y = z then some σ else none
  | .assign v e => (e.size σ).bind fun z => if (ty v).admits z then some (Function.update σ v z) else none
  | .declare v => some (Function.update σ v (ty v).initial)
  | .fill _ => some σ
  | .pass e t => (e.size σ).bind fun z => if t.admits z then some σ else none

/-- Commands. -/
inductive Cmd (V : Type)
  | basic (b : Basic V)
  | skip
  | seq (a b : Cmd V)
  /-- a branch decided by values -/
  | alt (a b : Cmd V)
  /-- a loop whose number of turns is decided by values -/
  | many (a : Cmd V)

namespace Cmd
variable {V : Type}
/-- `for(k = 0; k < n; k++) f(k);` -/
def upto : ℕ → (ℕ → Cmd V) → Cmd V
  | 0, _ => .skip
  | n + 1, f => .seq (upto n f) (f n)

/-- A list of statements. -/
def block : List (Cmd V) → Cmd V
  | [] => .skip
  | a :: l => .seq a (block l)

abbrev read (e : Exp V) : Cmd V := .basic (.read e)
abbrev write (l e : Exp V) : Cmd V := .basic (.write l e)
abbrev assign (v : V) (e : Exp V) : Cmd V := .basic (.assign v e)
abbrev declare (v : V) : Cmd V := .basic (.declare v)
abbrev fill (v : V) : Cmd V := .basic (.fill v)
abbrev pass (e : Exp V) (t : Ty) : Cmd V := .basic (.pass e t)

/-- The static conditions of a command: `T::Constant(value)` needs a fixed-size type. -/
def Compiles (ty : V → Ty) : Cmd V → Prop
  | .basic (.fill v) => (ty v).isDynamic = false
  | .basic _ => True
  | .skip => True
  | .seq a b => Compiles ty a ∧ Compiles ty b
  | .alt a b => Compiles ty a ∧ Compiles ty b
  | .many a => Compiles ty a
end Cmd

/-- Possible executions of a command: from sizes `σ` to sizes, or to a failure (`none`). -/
inductive Exec {V : Type} [DecidableEq V] (ty : V → Ty) : Cmd V → (V → ℕ × ℕ) → Option (V → ℕ × ℕ) → Prop
  | basic (b : Basic V) (σ) : Exec ty (.basic b) σ (b.run ty σ)
  | skip (σ) : Exec ty .skip σ (some σ)
  | seqFail {a b σ} : Exec ty a σ none → Exec ty (.seq a b) σ none
  | seq {a b σ σ' r} : Exec ty a σ (some σ') → Exec ty b σ' r → Exec ty (.seq a b) σ r
  | altL {a b σ r} : Exec ty a σ r → Exec ty (.alt a b) σ r
  | altR {a b σ r} : Exec ty b σ r → Exec ty (.alt a b) σ r
  | manyStop {a σ} : Exec ty (.many a) σ (some σ)
  | manyFail {a σ} : Exec ty a σ none → Exec ty (.many a) σ none
  | many {a σ σ' r} : Exec ty a σ (some σ') → Exec ty (.many a) σ' r → Exec ty (.many a) σ r

/-- A loop `for(iter = 1; iter <= n; iter++)` that may be left early: no turn if `n` is 0, at least one otherwise. -/
def turns {V : Type} (n : ℕ) (a : Cmd V) : Cmd V := if n = 0 then .skip else .seq a (.many a)

/-- The arguments of `QPBase::solve`, qp_base.hpp:160-176. -/
structure QpArgs (V : Type) where
  H : Exp V
  h : Exp V
  A : Exp V
  Alb : Exp V
  Aub : Exp V
  xl : Exp V
  xu : Exp V
  xg : Exp V
  yg : Exp V

/-- Arguments of the nominal sizes, as user code passes them. -/
def QpArgs.lit {V : Type} (N M : ℕ) : QpArgs V :=
  ⟨.lit N N, .lit N 1, .lit M N, .lit M 1, .lit M 1, .lit N 1, .lit N 1, .lit N 1, .lit (N + M) 1⟩

/-- `parse_constraints_bounds`, qp_base.hpp:195-222; `ta`, `tx` are `qp_dual_a_t` and `qp_var_t`; the arrays `constr_type`, `box_constr_type`
have `M` and `N` elements. -/
def parseBounds {V : Type} (N M : ℕ) (ta tx : Ty) (q : QpArgs V) : Cmd V :=
  .block [.read (.sum q.Alb q.Aub), .read (.sum q.xl q.xu),
    .upto ta.rowsAtCompileTime fun i => .block [.read (.at' q.Alb i), .read (.at' q.Aub i), .read (.at' (.lit M 1) i)],
    .upto tx.rowsAtCompileTime fun i => .block [.read (.at' q.xl i), .read (.at' q.xu i), .read (.at' (.lit N 1) i)]]

/-! ### ADMM -/

/-- Members of `ADMM` and locals of `solve_impl`: admm.hpp:78-80, 98-99, 118; qp_base.hpp:129-130. -/
inductive AdmmVar
  | x | y | xt | z | zt | zp | rho | rhoInv | K | A | rhs | xtn
  deriving DecidableEq

/-- Nominal sizes: admm.hpp:32-38, qp_base.hpp:106-108. -/
def admmDecl (N M : ℕ) : AdmmVar → ℕ × ℕ
  | .x => (N, 1)
  | .xt => (N, 1)
  | .y => (N + M, 1)
  | .z => (N + M, 1)
  | .zt => (N + M, 1)
  | .zp => (N + M, 1)
  | .rho => (N + M, 1)
  | .rhoInv => (N + M, 1)
  | .K => (2 * N + M, 2 * N + M)
  | .A => (N + M, N)
  | .rhs => (2 * N + M, 1)
  | .xtn => (2 * N + M, 1)

/-- The selected types. -/
def admmTy (limit s N M : ℕ) (v : AdmmVar) : Ty := select limit s (admmDecl N M v).1 (admmDecl N M v).2

section Admm
variable {V : Type} (m : AdmmVar → V) (limit s N M : ℕ)

/-- Constructor of `ADMM`, admm.hpp:40-55, 62-73; `m` names the members. -/
def admmCtor : Cmd V :=
  .block [.fill (m .rho), .fill (m .rhoInv),
    .assign (m .K) (.lit (2 * N + M) (2 * N + M)),
    if (admmTy limit s N M .A).isDynamic then .assign (m .A) (.lit (N + M) N) else .skip]

/-- `rho_vec_update`, admm.hpp:405-444. -/
def admmRho : Cmd V :=
  .block [
    .upto (select limit s M 1).rowsAtCompileTime fun i => .block [.read (.at' (.lit M 1) i), .read (.at' (.var (m .rho)) i)],
    .upto (select limit s N 1).rowsAtCompileTime fun i => .block [.read (.at' (.lit N 1) i), .read (.at' (.var (m .rho)) (i + M))],
    .assign (m .rhoInv) (.var (m .rho))]

/-- `construct_A`, admm.hpp:216-222. -/
def admmA (q : QpArgs V) : Cmd V :=
  .block [.write (.block (.var (m .A)) 0 0 M N) q.A, .read (.block (.var (m .A)) M 0 N N)]

/-- `construct_kkt_matrix` and `factorise_kkt_matrix`, admm.hpp:249-265, 374-380. The last command is the assertion of Eigen's decompositions that
the matrix is square. -/
def admmKkt (q : QpArgs V) : Cmd V :=
  .block [.pass (.var (m .A)) (admmTy limit s N M .A),
    .write (.corner (.var (m .K)) false false N N) q.H,
    .write (.diag (.corner (.var (m .K)) false false N N)) (.lit N 1),
    .alt (.write (.corner (.var (m .K)) false true N (M + N)) (.trans (.var (m .A)))) .skip,
    .write (.corner (.var (m .K)) true false (M + N) N) (.var (m .A)),
    .write (.corner (.var (m .K)) true true (M + N) (M + N)) (.asDiag (.var (m .rhoInv))),
    .read (.sum (.var (m .K)) (.trans (.var (m .K))))]

/-- `compute_kkt_rhs`, admm.hpp:391-395. -/
def admmRhs (q : QpArgs V) : Cmd V :=
  .block [.pass (.var (m .rhs)) (admmTy limit s N M .rhs),
    .write (.head (.var (m .rhs)) N) (.sum (.var (m .x)) q.h),
    .write (.tail (.var (m .rhs)) (M + N)) (.sum (.var (m .z)) (.sum (.var (m .rhoInv)) (.var (m .y))))]

/-- `box_projection(m_z, …)`, admm.hpp:397-403. -/
def admmProj (q : QpArgs V) : Cmd V :=
  .block [.write (.head (.var (m .z)) M) (.sum (.sum (.head (.var (m .z)) M) q.Alb) q.Aub),
    .write (.tail (.var (m .z)) N) (.sum (.sum (.tail (.var (m .z)) N) q.xl) q.xu)]

/-- `residuals_update` with `primal_residual` and `dual_residual`, admm.hpp:446-470, qp_base.hpp:224-253. -/
def admmResiduals (q : QpArgs V) : Cmd V :=
  .block [.read (.prod q.A (.var (m .x))), .read (.tail (.var (m .x)) N), .read (.var (m .z)),
    .read (.prod q.H (.var (m .x))), .read (.prod (.trans (.head (.var (m .y)) M)) q.A), .read q.h, .read (.tail (.var (m .y)) N),
    .pass (.head (.var (m .z)) M) (select limit s M 1),
    .read (.sum (.prod q.A (.var (m .x))) (.head (.var (m .z)) M)),
    .read (.sum (.var (m .x)) (.tail (.var (m .z)) N)),
    .read (.sum (.sum (.sum (.prod q.H (.var (m .x))) q.h) (.prod (.trans q.A) (.head (.var (m .y)) M))) (.tail (.var (m .y)) N))]

/-- One turn of the loop of `solve_impl`, admm.hpp:141-204. -/
def admmBody (q : QpArgs V) : Cmd V :=
  .block [.assign (m .zp) (.var (m .z)),
    admmRhs m limit s N M q,
    .assign (m .xtn) (.prod (.var (m .K)) (.var (m .rhs))),
    .assign (m .xt) (.head (.var (m .xtn)) N),
    .assign (m .zt) (.sum (.var (m .zp)) (.sum (.var (m .rhoInv)) (.sum (.tail (.var (m .xtn)) (M + N)) (.var (m .y))))),
    .assign (m .x) (.sum (.var (m .xt)) (.var (m .x))),
    .assign (m .z) (.var (m .zt)),
    .write (.var (m .z)) (.sum (.var (m .zp)) (.sum (.var (m .rhoInv)) (.var (m .y)))),
    .pass (.var (m .z)) (admmTy limit s N M .z),
    admmProj m N M q,
    .write (.var (m .y)) (.sum (.var (m .rho)) (.sum (.sum (.var (m .zt)) (.var (m .zp))) (.var (m .z)))),
    .alt (admmResiduals m limit s N M q) .skip,
    .alt (.block [.alt (admmResiduals m limit s N M q) .skip,
        .alt (.block [admmRho m limit s N M,
            .write (.tail (.diag (.var (m .K))) (N + M)) (.var (m .rhoInv)),
            .read (.sum (.var (m .K)) (.trans (.var (m .K))))]) .skip]) .skip]

/-- `solve_impl`, admm.hpp:104-213; `maxIter` is the setting `max_iter`. -/
def admmSolve (maxIter : ℕ) (q : QpArgs V) : Cmd V :=
  .block [.declare (m .rhs), .declare (m .xtn), .assign (m .x) q.xg, .assign (m .y) q.yg,
    admmA m N M q,
    .assign (m .z) (.prod (.var (m .A)) q.xg),
    parseBounds N M (select limit s M 1) (select limit s N 1) q,
    admmRho m limit s N M,
    admmKkt m limit s N M q,
    turns maxIter (admmBody m limit s N M q)]
end Admm

/-! ### boxADMM -/

/-- Members of `boxADMM` and locals of `solve_impl`: box_admm.hpp:44-48, 66, 94; qp_base.hpp:129-130. The last variable stands for the unnamed
object `qp_var_t::Constant(sigma)` in box_admm.hpp:215. -/
inductive BoxVar
  | x | y | xt | q | z | zt | zp | rho | rhoInv | rhoBox | rhoBoxInv | rhoBoxPrev | K | rhs | xtn | sigma
  deriving DecidableEq

/-- Nominal sizes: qp_base.hpp:106-118, box_admm.hpp:44-66. -/
def boxDecl (N M : ℕ) : BoxVar → ℕ × ℕ
  | .x => (N, 1)
  | .y => (N + M, 1)
  | .xt => (N, 1)
  | .q => (N, 1)
  | .z => (M, 1)
  | .zt => (M, 1)
  | .zp => (M, 1)
  | .rho => (M, 1)
  | .rhoInv => (M, 1)
  | .rhoBox => (N, 1)
  | .rhoBoxInv => (N, 1)
  | .rhoBoxPrev => (N, 1)
  | .K => (N + M, N + M)
  | .rhs => (N + M, 1)
  | .xtn => (N + M, 1)
  | .sigma => (N, 1)

/-- The selected types. -/
def boxTy (limit s N M : ℕ) (v : BoxVar) : Ty := select limit s (boxDecl N M v).1 (boxDecl N M v).2

section Box
variable {V : Type} (m : BoxVar → V) (limit s N M : ℕ)

/-- Constructor of `boxADMM`, box_admm.hpp:33-41, 70-74. -/
def boxCtor : Cmd V :=
  .block [.fill (m .rho), .fill (m .rhoInv), .assign (m .K) (.lit (N + M) (N + M))]

/-- `rho_vec_update`, box_admm.hpp:357-396. -/
def boxRho : Cmd V :=
  .block [
    .upto (select limit s M 1).rowsAtCompileTime fun i => .block [.read (.at' (.lit M 1) i), .read (.at' (.var (m .rho)) i)],
    .assign (m .rhoInv) (.var (m .rho)),
    .upto (select limit s N 1).rowsAtCompileTime fun i => .block [.read (.at' (.lit N 1) i), .read (.at' (.var (m .rhoBox)) i)],
    .assign (m .rhoBoxInv) (.var (m .rhoBox))]

/-- `construct_kkt_matrix` and `factorise_kkt_matrix`, box_admm.hpp:207-223, 335-341. -/
def boxKkt (q : QpArgs V) : Cmd V :=
  .block [
    .write (.corner (.var (m .K)) false false N N) q.H,
    .declare (m .sigma), .fill (m .sigma),
    .write (.diag (.corner (.var (m .K)) false false N N)) (.var (m .sigma)),
    .write (.diag (.corner (.var (m .K)) false false N N)) (.var (m .rhoBox)),
    .alt (.write (.corner (.var (m .K)) false true N M) (.trans q.A)) .skip,
    .write (.corner (.var (m .K)) true false M N) q.A,
    .write (.diag (.corner (.var (m .K)) true true M M)) (.var (m .rhoInv)),
    .read (.sum (.var (m .K)) (.trans (.var (m .K))))]

/-- `compute_kkt_rhs`, box_admm.hpp:351-355. -/
def boxRhs (q : QpArgs V) : Cmd V :=
  .block [.pass (.var (m .rhs)) (boxTy limit s N M .rhs),
    .write (.head (.var (m .rhs)) N)
      (.sum (.sum (.sum (.var (m .x)) q.h) (.sum (.var (m .rhoBox)) (.var (m .q)))) (.tail (.var (m .y)) N)),
    .write (.tail (.var (m .rhs)) M) (.sum (.var (m .z)) (.sum (.var (m .rhoInv)) (.head (.var (m .y)) M)))]

/-- `residuals_update` with `primal_residual` and `dual_residual`, box_admm.hpp:398-416, qp_base.hpp:224-253. -/
def boxResiduals (q : QpArgs V) : Cmd V :=
  .block [.read (.prod q.A (.var (m .x))), .read (.var (m .z)), .read (.prod q.H (.var (m .x))),
    .read (.prod (.trans q.A) (.head (.var (m .y)) M)), .read q.h, .read (.tail (.var (m .y)) N),
    .read (.sum (.prod q.A (.var (m .x))) (.var (m .z))), .read (.sum (.var (m .x)) (.var (m .q))),
    .read (.sum (.sum (.sum (.prod q.H (.var (m .x))) q.h) (.prod (.trans q.A) (.head (.var (m .y)) M))) (.tail (.var (m .y)) N))]

/-- One turn of the loop of `solve_impl`, box_admm.hpp:117-196. -/
def boxBody (q : QpArgs V) : Cmd V :=
  .block [.assign (m .zp) (.var (m .z)),
    boxRhs m limit s N M q,
    .assign (m .xtn) (.prod (.var (m .K)) (.var (m .rhs))),
    .assign (m .xt) (.head (.var (m .xtn)) N),
    .assign (m .zt) (.sum (.var (m .zp)) (.sum (.var (m .rhoInv)) (.sum (.tail (.var (m .xtn)) M) (.head (.var (m .y)) M)))),
    .assign (m .x) (.var (m .xt)),
    .write (.var (m .x)) (.var (m .x)),
    .assign (m .z) (.var (m .zt)),
    .write (.var (m .z)) (.sum (.var (m .zp)) (.sum (.var (m .rhoInv)) (.head (.var (m .y)) M))),
    .assign (m .z) (.sum (.sum (.var (m .z)) q.Alb) q.Aub),
    .assign (m .q) (.sum (.var (m .x)) (.sum (.var (m .rhoBoxInv)) (.tail (.var (m .y)) N))),
    .assign (m .q) (.sum (.sum (.var (m .q)) q.xl) q.xu),
    .write (.head (.var (m .y)) M) (.sum (.var (m .rho)) (.sum (.sum (.var (m .zt)) (.var (m .zp))) (.var (m .z)))),
    .write (.tail (.var (m .y)) N) (.sum (.var (m .rhoBox)) (.sum (.var (m .x)) (.var (m .q)))),
    .alt (boxResiduals m N M q) .skip,
    .alt (.block [.alt (boxResiduals m N M q) .skip,
        .alt (.block [.assign (m .rhoBoxPrev) (.var (m .rhoBox)),
            boxRho m limit s N M,
            .write (.diag (.corner (.var (m .K)) false false N N)) (.sum (.var (m .rhoBox)) (.var (m .rhoBoxPrev))),
            .write (.diag (.corner (.var (m .K)) true true M M)) (.var (m .rhoInv)),
            .read (.sum (.var (m .K)) (.trans (.var (m .K))))]) .skip]) .skip]

/-- `solve_impl`, box_admm.hpp:81-205. -/
def boxSolve (maxIter : ℕ) (q : QpArgs V) : Cmd V :=
  .block [.declare (m .rhs), .declare (m .xtn), .assign (m .x) q.xg, .assign (m .y) q.yg,
    .assign (m .z) (.prod q.A q.xg), .assign (m .q) q.xg,
    parseBounds N M (select limit s M 1) (select limit s N 1) q,
    boxRho m limit s N M,
    boxKkt m N M q,
    turns maxIter (boxBody m limit s N M q)]
end Box

end PolyMPC.Storage
