# Formal model of PolyMPC in Lean 4

## Layout

- `lean/Verif/Model/*.lean`  the model, one file per source area; every definition cites file and lines of `/repo`.
- `lean/Verif/Spec/*.lean`   small specifications, written without the model (KKT conditions, feasibility, ...).
- `lean/Verif/Lemmas/*.lean` helper lemmas.
- `lean/Verif/Props/*.lean`  the property theorems, each next to an `example` which shows that the hypotheses can be met.

`properties.jsonl` lists the properties, `MANIFEST.json` maps each property to theorem names,
`seeded/LOG.jsonl` records the mutation experiments.

## Trusted base

1. Lean's kernel (4.33.0) and Mathlib's definitions used in statements (`Matrix`, `Polynomial`, `HasFDerivAt`, `Real.cos`, integrals).
2. Axioms: only `propext`, `Classical.choice`, `Quot.sound` (checked with `#print axioms`).
3. The reading of the C++ code. No part of the code is executed.
4. Simplifications which apply everywhere:
   - `scalar_t` (double/float) is an ordered field (`K`) or `ℝ`; rounding, overflow, NaN and infinities are not modelled (NaN is in Model/FilterNan, Model/SqpNan and Model/AdmmNan).
     Literal constants such as `1e-4` are exact rationals. Exception: Model/AdmmRounded, Model/BoxAdmmRounded,
     Model/SqpRounded, Model/RuizRounded, Model/BfgsRounded, Model/Sr1Rounded and Model/TimeGridRounded are ADMM, boxADMM, SQP, the Ruiz preconditioner, BFGS, SR1 and the time grid over an arbitrary arithmetic on finite reals; what the theorems assume of it is `Accurate`
     and `Ordered` in Model/Rounding (relative errors, monotone rounding; no overflow, underflow or NaN). Infinite bounds of a QP and of SQP are
     modelled in Model/QPInf and Model/SqpInf.
   - `int`/`Eigen::Index` are `ℕ`/`ℤ`; integer overflow is modelled only where a property is about it.
   - Memory: out-of-range access, reads of uninitialised storage, pop on an empty list and division by zero in integer
     arithmetic are modelled as a distinct outcome (`Option`/`Except`) where the source can reach them.
   - Eigen expressions are their mathematical meaning; aliasing is modelled by sequential updates in the order of the code.
   - External solvers (LDLT factorisation, OSQP, qpmad, Ipopt, Schur/SVD/eigen solvers, root finders, CVODES) are parameters.
     Each theorem states what it assumes of them (usually nothing; where needed: "returns a solution of the linear system").
   - User supplied functions (dynamics, costs, constraints) are arbitrary functions.
5. Printing, timing, template instantiation, compile-time assertions and memory allocation are not modelled.

### External behaviour that is assumed (stated where it enters a definition or hypothesis)

| what | assumption |
|------|------------|
| Eigen dense algebra | the mathematical operation; `noalias()` products read their operands before writing, except in `lyapunov`, where the aliasing is explicit |
| Eigen sparse matrices (`Model/Sparse.lean`) | uncompressed column-major storage; `reserve`, `insert`, `coeffRef`, `leftCols(n) = B`, `InnerIterator` and the four raw arrays behave as defined there; an insertion that would reallocate is `none` in `insert` (transcription); `insertIn` (QP solvers) makes room as Eigen does |
| `sparseView`/`pruned` | drops exactly the zeros (Eigen drops entries below a relative tolerance) |
| LDLT, LU, `solve` | a parameter; theorems that need it assume that it solves the system |
| Schur, SVD, eigenvalue and polynomial root finders | parameters, with the exact decomposition as hypothesis |
| QP solver inside SQP | an arbitrary function; theorems that need it assume optimality of its result |
| the NLP solver inside `MPC` | an arbitrary function of its complete input |
| CVODES | an arbitrary partial function |
| OsqpEigen | `data()` accepts each matrix once, `initSolver()` acts once and copies settings and data, `update…` acts only afterwards; refusals are reported by return values, which the adapter ignores |
| CasADi vector expressions | `dot`, `cross`, slices, `vertcat` as in mathematics; a slice that does not end after its start is empty; an empty argument of a function stands for zeros; a wrong number of arguments throws; an assignment to a slice needs the length of the slice or one |
| Ipopt | reads the arrays as triplets (`Spec/Ipopt.lean`) and passes `m` multipliers to the callbacks, as its manual says |

## What is modelled

| source file | model | extent |
|-------------|-------|--------|
| src/solvers/admm.hpp, qp_base.hpp | Model/Admm, QPBase | the dense `ADMM`: settings, bound classification, KKT assembly and patching, the whole loop, getters |
| src/solvers/box_admm.hpp | Model/BoxAdmm | the dense `boxADMM`, as above |
| admm.hpp, qp_base.hpp with rounding errors | Model/Rounding, Model/AdmmRounded | the same functions as Model/Admm with uninterpreted operations, fused or not, sums in any order |
| box_admm.hpp with rounding errors | Model/BoxAdmmRounded | the same functions as Model/BoxAdmm, as Model/AdmmRounded |
| admm.hpp, box_admm.hpp with infinite bounds | Model/QPInf | classification of the bounds and projections with operands that may be infinite; the functions that do not read a bound are those of Model/Admm and Model/BoxAdmm |
| sqp_base.hpp with infinite bounds | Model/SqpInf | as Model/Sqp, bounds are numbers or infinite; equilibration with infinite bounds (positive factors) |
| sqp_base.hpp with the filter line search of tests/control/valet_parking_mpc_test.cpp:97-166 | Model/SqpFilter | as Model/Sqp; the filter is part of the state |
| mpc_wrapper.hpp with infinite limits | Model/MpcInf | bounds in `WithBot`/`WithTop`; lower limits `+∞` and upper limits `-∞` not modelled; sessions of setter calls and solves |
| sqp_test_autodiff.cpp:16-48 (eigenvalue mirroring) | Model/Mirror | the decomposition (Eigen::EigenSolver) is a parameter |
| src/control/ode_collocation.hpp, cost_collocation.hpp, constraints_collocation.hpp | Model/OldColloc | both constructors, evaluation, first and second derivatives, `generic_function`. Simplified: the AD instantiations of the functors are given functions; unset seeds and empty weights are the outcome `none`. Left out: `generic_function_jacoabian`, which is declared only |
| src/control/sparse_ode_collocation.hpp | Model/OldSparse | both constructors, evaluation, both ways of linearising, with explicit storage of the matrix. Simplified: an insertion that meets an old entry and a product of matrices that do not fit are the outcome `none` |
| solver options and statistics in src/nmpc.hpp, nmpf.hpp, generic_ocp.hpp, integration/chebyshev_integrator.hpp | Model/SolverOpts | `OPTS`, `updateParams`, `update_solver_params`, `stats`, `solve_status`. Assumption about CasADi: `nlpsol` copies the options. Left out: a second call of `createNLP` by the user |
| qp_preconditioners.hpp (compute, unscale) with rounding errors | Model/RuizRounded | each product, division and square root rounded in the order of the source; norms and comparisons exact; `update` and `scale` not included |
| examples/mobile_robot.{hpp,cpp}, examples/kite.{h,cpp} | Model/Plants | the expressions as real functions; matrices filled by the same writes |
| continuous_ocp.hpp with `Spline<Legendre>` | Model/LegendreOcp | the dense transcription with the data of the Legendre scheme |
| trust_region_tests/gradproj_test.cpp: `GradProj` | Model/GradProj | any number of variables; the unbounded line search is cut off after `fuel` trials |
| trust_region_test.cpp | Model/TrustRegion | the loop of the prototype with its Cholesky decomposition as a parameter; division by zero is an outcome of its own |
| integration/integrator.cpp options | Model/OdeOptions | dictionaries as functions; reading a string as a number throws; CVODES an unknown function of its options and arguments |
| continuous_ocp.hpp:147-159 with rounding errors | Model/TimeGridRounded | set_time_limits with an arbitrary arithmetic; nodes as stored |
| line_search.hpp with NaN | Model/FilterNan | scalar type with a NaN value, comparisons with it false; no infinities, no rounding |
| sqp_base.hpp violation, line search and termination with NaN | Model/SqpNan | cost and constraints may be NaN, the iterate and the step are numbers; maxCoeff is a parameter; no infinities, no rounding |
| admm.hpp, box_admm.hpp iterate, residual test and penalty with NaN | Model/AdmmNan | dense; update of x, dual residual, termination and rho; all other quantities are arbitrary functions; no infinities, no rounding |
| sr1.hpp with rounding errors | Model/Sr1Rounded | operations of an arbitrary arithmetic; comparisons and absolute values exact |
| bfgs.hpp with rounding errors | Model/BfgsRounded | operations of an arbitrary arithmetic; negation and comparisons exact; literals in the scalar type |
| sqp_base.hpp with rounding errors | Model/SqpRounded | the same functions as Model/Sqp, as Model/AdmmRounded; problem functions, QP solver, preconditioner and Hessian update are parameters |
| both, with sparse matrices | Model/AdmmSparse | assembly and in-place updates of the sparse matrices, the loops around them |
| src/solvers/qp_preconditioners.hpp | Model/Ruiz | identity and Ruiz, dense and sparse compute/update/unscale |
| src/solvers/bfgs.hpp, sr1.hpp | Model/QuasiNewton | all |
| src/solvers/line_search.hpp | Model/Filter | all |
| src/solvers/sqp_base.hpp | Model/Sqp | `solve`, `solve_qp`, `linearisation` updates, step size selection, violations, termination; problem callbacks and QP solver are parameters |
| src/solvers/nlproblem.hpp | Model/Nlp | dense `ProblemBase`; callbacks are lists of statements per output; the overload of `lagrangian_gradient` that does not compile is left out; sparse problems have to overload these functions |
| src/solvers/ipopt_interface.hpp | Model/Ipopt | all callbacks of the adapter |
| ipopt_interface.hpp, class IpoptInterface | Model/IpoptUse | solve, guess, getters; Ipopt is an arbitrary function of the adapter, one per call (options and parameters are in it); printing is not modelled. `get_problem` does not compile when used (it returns the adapter as the problem) |
| src/solvers/osqp_interface.hpp, qpmad_interface.hpp | Model/QpAdapters | all; the external solvers are parameters, the settings one record |
| src/polynomials/* | Model/PolyMath, Chebyshev, LegendreScheme, Splines | all; `compute_galerkin_tensor` as a function (nothing calls it, `getGalerkinTensor` returns unwritten storage) |
| src/control/continuous_ocp.hpp | Model/Ocp, OcpSparse, OcpSparseHess | cost, constraints, linearisations, gradients, Hessians, Lagrangians, sparse BFGS, dense and sparse. The overloads that call the misspelled `equalities_linerised` cannot be instantiated and are left out |
| src/control/mpc_wrapper.hpp | Model/Mpc | all |
| src/control/lqr.hpp, CARE part of polymath.cpp | Model/Lqr | all |
| src/autodiff/* | Model/AutoDiff | the scalar type with the operations the library uses, nesting, the RBF kernel |
| src/polymath.cpp, polymath.h, src/integration/integrator.cpp | Model/CasadiMath | quaternions, grids, expansions, interpolators (also the generic one, with Eigen's size rules), RK4, solver object, functions on columns |
| src/chebyshev.hpp, chebyshev_soft.hpp, chebyshev_ms.hpp | Model/CasCheb | all except the unused `range`; expressions are identified with their values |
| src/generic_ocp.hpp | Model/GenericOcp | `setup` as a function of the point (the callbacks are arbitrary functions, what they register with `norm_diff` and `diff` is a list), options, bounds, getters, parameters, `solve` with an arbitrary solver. Left out: code generation, the replacement of the whole name table, sizes of guesses and multipliers given to `solve` |
| src/nmpc.hpp | Model/Nmpc | options, `createNLP` as a function of the point, bounds, scalings, warm start, `computeControl` with an arbitrary solver, `getPathError`. Simplified: `DM::solve` is replaced by a given inverse; a row of a scaled bound with an infinite entry is infinite in the direction of the bound; assertions of the constructor hold. Left out: printing (options and statistics: Model/SolverOpts) |
| src/nmpf.hpp | Model/Nmpf | options, augmented dynamics, `createNLP` as a function of the point, parameters, bounds, scalings, warm start with reset of the path variable, `computeControl` with an arbitrary solver, queries, `findClosestPointOnPath`. Simplified: as nmpc.hpp; CasADi functions with free variables (the parameters) are accepted; the derivative of the path is given. Left out: `setPath`, which is declared only, printing |
| src/integration/chebyshev_integrator.hpp | Model/PsOde | `PSODESolver`: options, constructor, program as a function of the point, `solve`, `solve_trajectory` with an arbitrary solver. Simplified: dense matrices with the size rules of CasADi, scaling matrices given with their inverses, no parameter arguments with several columns. Left out: statistics, printing; `eig_chebyshev_solver` and `set_dt` have no code |
| src/experimental/psarc.hpp, src/solvers/utils.hpp | Model/Psarc | `symbolic_psarc` up to the end of the loop in its constructor, with arbitrary corrector and linear solver; `is_psd` with the eigenvalues as parameter. Simplified: the options of the corrector, plotting data and timing are left out; `operator()` has no code; `print_qp` prints |
| src/control/mpc_wrapper.hpp with src/solvers/sqp_base.hpp and src/control/continuous_ocp.hpp | Model/MpcSqp | the solver's callbacks are those of the dense transcription, its bounds, guess and result those of the wrapper. Simplified: derivative members of the transcription do not change between calls (`problem_any`: they do not matter) |
| src/utils/helpers.hpp, and the sizes of the dense objects in src/solvers/{qp_base,admm,box_admm,sqp_base,bfgs,nlproblem}.hpp, src/control/continuous_ocp.hpp | Model/Storage, Model/StorageSqp, Model/StorageAd | `dense_matrix_type_selector`; every operation on dense objects as an effect on sizes, with an operation on unsuitable sizes as failure; value-dependent branches and loops may go either way. Simplified: template products are natural numbers (`int` in the code); fixed-size temporaries are literals; user callbacks access only their arguments. Trusted about Eigen: the rules listed at the head of Model/Storage |
| src/solvers/sqp_base.hpp:242-261, 567-696 with an overridden `update_linearisation` | Model/SqpOverride | the solver loop with this function as a parameter (proved equal to `solve` of Model/Sqp for the default), and the override of the tests that linearises exactly in every iteration |
| sqp_base.hpp:66-90 with box_admm.hpp (dense) | Model/SqpBox | the default QP solver and its settings in the SQP loop |
| src/solvers/sqp_base.hpp, box_admm.hpp for MATRIXFMT = SPARSE | Model/SqpSparse | the SQP loop on a stored sparse Hessian, Jacobians and KKT matrix with the flag that keeps the symbolic part; the linear solver is an arbitrary function |
| tests/control/dense_sparse_compare.cpp, nonlinear_constraints_test.cpp, minimal_time_test.cpp | Model/Gershgorin | the two overrides of the Hessian regularisation |

Not modelled: src/utils/Reshaped.h (an Eigen header nothing includes), the tests and examples (except the overrides of solver functions listed above, the plants in Model/Plants and the prototypes in Model/GradProj and Model/TrustRegion).

## Plan per property

| id | modelled | how it is proved |
|----|----------|------------------|
| C01 | the whole `ADMM::solve_impl` loop as a state machine; the linear solve is a parameter | induction over the loop: SOLVED is only set next to the residual test, nothing changes afterwards |
| C02 | same | invariant `lb ≤ z ≤ ub` after each iteration |
| C03 | same | algebra of `y⁺ = ρ(v - Π v)`, invariant over iterations |
| C04 | same + convex QP spec | convexity inequality with C01-C03 |
| C05 | same | loop induction |
| C06 | one iteration, exact linear solve | both directions by algebra |
| C07 | `construct_kkt_matrix` | kernel argument with quadratic forms |
| C08 | `rho_vec_update`, `estimate_rho`, clamping | case analysis + invariant over histories |
| C09 | `update_kkt_rho` | induction over histories |
| C10 | `parse_constraints_bounds` | case analysis |
| C11 | `boxADMM::solve_impl` | as C01-C03 |
| C12 | boxADMM step | algebra; counterexample for α ≠ 1 |
| C13, C62 | ADMM and boxADMM with fixed ρ | Lyapunov function (Fejér monotonicity), summability, compactness |
| C14 | Ruiz compute/scale/unscale | field algebra, invariant over sweeps |
| C15 | same + QP spec | change of variables |
| C16 | Ruiz update | concrete counterexample; theorem for a single sweep |
| C17, C18 | `BFGS_update` | Cauchy-Schwarz for B-forms; induction over histories |
| C19 | `SR1_update` with division by zero as an outcome | algebra |
| C20-C22 | `LSFilter` over lists, UB outcome for pop on empty | induction over operation sequences |
| C23, C24 | `SQPBase::solve` as a state machine, all problem callbacks are parameters | loop induction |
| C25 | `step_size_selection` | loop induction |
| C26 | violation measures | sums of nonnegative terms |
| C27, C28 | `solve_qp` bound construction, step | convex combination |
| C29 | `poly_mul` (with its uninitialised case), `poly_diff` | relation to Mathlib `Polynomial` |
| C30 | Legendre basis generation | induction over order |
| C31-C33 | Chebyshev nodes, weights, differentiation matrix over ℝ | trigonometric identities, Lagrange interpolation |
| C34, C74-C76 | Legendre scheme | orthogonality, Rolle; counterexample for the matrix |
| C35, C36 | splines | Lagrange basis algebra; floor reasoning |
| C37 | time grid | algebra over segments |
| C38-C41 | `ContinuousOCP` equalities and their linearisations | block index reasoning, storage invariants of the sparse matrices over all histories |
| C42, C43, C77, C78 | cost, gradient, Hessian, Lagrangian | calculus on the AD scalars; two-call counterexample |
| C44 | inequality update | counterexample |
| C45, C81 | Lagrangian gradient | linear algebra |
| C46, C79, C80, C82, C83 | sparse Hessian and BFGS | storage invariants; entrywise comparison with the dense result |
| C47-C49, C84, C85 | MPC wrapper state | index reasoning over all histories of setter calls, floor |
| C50-C52, C86-C89 | LQR helpers | calculus on a compact interval; triangular substitution; Cayley-Hamilton |
| C53-C56 | AD scalar as an algebra over expressions | induction over expressions with `HasFDerivAt` |
| C57, C90 | RK4 | algebra; jets of analytic maps for the order |
| C58 | quaternion helpers | identification with Mathlib's quaternions |
| C59, C97-C100 | Ipopt adapter | list enumeration, storage invariants of the sparse problem |
| C101-C106 | derivatives of user-defined nonlinear programs | tracking relation of C54, invariant on the seeds over call histories |
| C107-C112 | sparse ADMM and boxADMM | storage invariants, simulation of the dense solvers over call histories |
| C113-C117 | adapters to OSQP and qpmad | storage invariant of the stacked matrix; induction over calls and SQP iterations |
| C118-C126 | symbolic transcription | comparison with the template transcription; polynomial identities (degree and number of nodes) |
| C127-C135 | optimal control program | composition of C118-C126; equivariance of every block under scaling; induction over lists of expressions and of calls |
| C136-C144 | tracking controller | C118, C119 with the rows of the initial node cut off; determinant of the collocation matrix and continuity in the horizon (C139); induction over calls |
| C145-C153 | path-following controller | C117-C120 for the augmented system; induction over calls; one Gauss-Newton step (C153) |
| C154-C158 | initial value problems by collocation | C117-C120; the determinant is a polynomial in the horizon (C155); invariant over calls (C156) |
| C159-C161 | continuation along a homotopy | feasible sets by algebra, invariant of the loop, derivative along the direction; progress of the loop for x - b = 0 by comparing with another point of the path |
| C162 | `is_psd` | both factorisations of the characteristic polynomial have the same roots |
| C163 | SQP on quadratic programs | the QP of every iterate has the shifted solution; slope bound of C67 for the full step; the second pass is at a fixed point (C66) |
| C164 | SOLVED and the trajectory | composition of C24 (termination test), C38 (collocation residual) and the wrapper's getters |
| C165 | linear-quadratic control | affine and quadratic functions are closed under the operations of the transcription; uniqueness of derivatives; C163 |
| C166 | existence of optimal pairs | Farkas' lemma by induction on the number of vectors; the variable bounds make the feasible set compact; C13, C62, C107, C163 |
| C167 | infeasible programs | Farkas certificate gives a positive distance between the rows and the bounds; residual test of C01, C11 |
| C168 | crossed bounds | simulation: classification and projection agree, hence every state |
| C169 | starting from a solution | C66 and uniqueness of the multipliers for the first iteration; uniqueness of gradients (C74) for the order of the multipliers |
| C170, C171 | sizes of all dense objects as programs of a small language with nondeterministic branches | an invariant over all executions for sizes that fit, an object that stays empty up to a failing access for the others |
| C172 | types of the automatic differentiation members | arithmetic on sizes |
| C173, C174 | sqp_base solve with `update_linearisation` as a parameter | stability of the KKT conditions under linear independence of the active gradients and a positive definite Hessian (perturbation bounds, no strict complementarity), then induction over the iterations |
| C175 | step_size_selection_impl | a family of points on a circle, explicit QP solutions |
| C176 | polymath care, lqr | Lyapunov certificates: a step of length in (0, 2] along the Newton direction decreases along trajectories, detectability excludes the rest; induction over the iterates |
| C177, C178 | init_newton_care, lyapunov, pinv; control/lqr.hpp lqr | a matrix skew for an inner product and nilpotent is zero; explicit entries for the double integrator |
| C179, C180 | sqp_base.hpp with MATRIXFMT SPARSE, box_admm.hpp sparse | simulation: invariant on the stored patterns and values of Jacobian, Hessian and KKT matrix, then induction over iterations and solves; C180 by following the two iterations at rest |
| C181, C182 | the regularisation of the control tests | closed form of the loop, diagonal dominance; induction over the iterations of a run |
| C183 | src/chebyshev.hpp, continuous_ocp.hpp, mpc_wrapper.hpp | Taylor polynomial of the exact solution, growth of a polynomial from its derivative at the nodes, self-bounding on a segment, induction over the segments |
| C184 | src/chebyshev.hpp | contraction on the derivatives at the nodes of a segment, induction over the segments |
| C185-C187 | sqp_base.hpp | descent lemma, potential of cost and multipliers that drops by half the squared tolerance in every iteration before termination, variational inequality of the QP |
| C188-C190 | admm.hpp | witness with an explicit periodic sequence of step sizes, bounds on the iterates in each of the four kinds of blocks of 25 passes; Lyapunov function on the tail of a run; pigeonhole over the tested passes |
| C191-C195 | admm.hpp, box_admm.hpp, sqp_base.hpp | monotonicity of the normal cone with residuals; invariant of 100 passes with tiny steps for the witness of C192; the residuals of boxADMM at the end of a call enter the proofs of C27, C67 and C72 in place of exactness |
| C196 | legendre.hpp compute_galerkin_tensor | discrete orthogonality of the Legendre basis at the nodes (C75) and exactness of the quadrature |
| C197, C198 | polymath helpers | list inductions; Lagrange basis as in C95 |
| C199-C201 | box_admm.hpp | a pass with alpha = 1 is a step of ADMM (C61) for any step sizes; then as C188-C190, with the sum of the residuals of rows and bounds |
| C202-C204 | admm.hpp | error propagation (`Near`) through one pass and the residuals; an invariant for the step sizes; the projection is exact |
| C205 | box_admm.hpp | as C202-C204 |
| C206 | box_admm.hpp | a run of one pass, executed with rounding to p+1 binary digits for every p |
| C207 | sqp_base.hpp | QP solvable at every point of a feasible problem (Farkas), violations along a segment, merit slope with violation, induction over iterates |
| C208 | sqp_base.hpp | induction over the trials of the line search and over the iterations; two runs as witnesses |
| C209 | continuous_ocp.hpp, mpc_wrapper.hpp | C183, C208, exactness and positivity of the quadrature weights (C33), Taylor polynomial on each segment |
| C210 | sqp_base.hpp | invariant over the iterations: an excess over a bound never grows, because rounding is monotone, or is bounded afresh; a run as witness that bounds are not kept exactly |
| C211 | sqp_base.hpp | relative error bounds of the differences and products in the stopping test |
| C212 | qp_base.hpp, admm.hpp, box_admm.hpp | induction over the passes: a pass reads a bound only through comparisons that a large number decides like infinity; transfer of C01-C05, C11, C190, C201 |
| C213, C214 | sqp_base.hpp, qp_preconditioners.hpp | induction over the iterations: for every state there is a size of the bounds from which on finite and infinite runs agree; transfer of C23, C24, C27, C193; sign of the multipliers as invariant |
| C215, C216 | line_search.hpp, sqp_base.hpp, the filter override in tests/control | invariant: some entry of the filter dominates every recorded point; with a best point in the filter the run is that of a solver with constant step size; simulation for cleared filters; witness |
| C217, C218 | box_admm.hpp, sqp_base.hpp | simulation between two runs with different pasts; invariant: the part of the KKT matrix that is never written is zero |
| C219 | mpc_wrapper.hpp with infinite limits | relation between the wrapper with infinite and with large limits, kept by every call (induction over the session); C164 and C213 |
| C220 | the eigenvalue-mirroring override in tests/solvers/sqp/sqp_test_autodiff.cpp | congruence with a diagonal matrix; C182 for the solve; Mathlib's spectral theorem for non-vacuity |
| C221-C223 | src/control/ode_collocation.hpp, cost_collocation.hpp (dense) | closed forms of the node loops, chain rule through the node projections, the residual and cost theorems of Model/Ocp for the comparison |
| C224 | src/control/sparse_ode_collocation.hpp | the pattern lemmas of the sparse ContinuousOCP for the problem without parameters, count of the reserved entries, induction over the calls |
| C225 | Chebyshev differentiation matrix | exactness on the nodal polynomial divided by a linear factor, derivative identities of the Chebyshev polynomials |
| C226 | options and statistics of nmpc, nmpf, GenericOCP, PSODESolver | dictionary lemmas, induction over the calls with the options of the solver object unchanged |
| C227 | sessions of sparse QP solvers | C107 and C110 with C04, C11, C166, C167, C188-C191, C199-C201; the corner of the KKT matrix stays clean |
| C228 | Ruiz scaling with rounding errors | invariant of the sweeps: each entry is the exactly scaled one times a factor between (1-eps)^k and (1-eps)^-k; C14, C15 for the exact part |
| C229 | size of scaled data | guarded norms bound the entries, so dividing by two square roots leaves at most one; invariant over the sweeps |
| C230 | example plants | the matrix product reduces to a speed times the heading; comparison with the kinematics on the sphere by differentiating the position; mean value inequality for the reach |
| C231 | ContinuousOCP with Legendre | C34 in every row of the constraints; a polynomial whose derivative vanishes at the interior nodes is a multiple of the Legendre polynomial plus a constant |
| C232 | GradProj | the accepted step sizes of the class are 0.9, 0.27 and 0.081; contraction of the gap of the second variable to its unconstrained minimum |
| C233 | LqrConverge | Lyapunov functions that fall at the rate of the squared state; quadratic forms instead of norms; the line search is at least as good as the full step |
| C234 | TrustRegion | Cauchy-Schwarz for the form of the product of two shifted Hessians; the reductions of a quadratic cost agree |
| C235 | MpcRest | the rows of the differentiation matrix sum to zero, a gradient vanishes at a minimum; induction over the steps of the closed loop |
| C236 | SqpSettings | control flow of C23 for arbitrary settings; a witness for `tau = 0` |
| C237 | MpcTime | parts of the problem as functions of (horizon) x (rates); uniqueness of gradients and Hessians; node times under an affine clock |
| C238 | OdeOptions | dictionary after a session by induction; the options of the integrator are constants |
| C239 | QpSettings | signs of the multipliers for negative step sizes; near-optimality applied to the program with the cost negated |
| C240 | BfgsRounded | entries as rounded formula; symmetry by induction over the calls; accumulated relative errors; evaluation of one update in double |
| C241 | IpoptUse | cases on the behaviour of Ipopt; induction over the session |
| C242 | Sr1Rounded | lower bounds of the computed norms, Cauchy-Schwarz for the guard, accumulated relative errors, Bernoulli's inequality for double |
| C243 | TimeGridRounded | which segment writes a node last, by induction; accumulated relative errors; numbers absorbed next to a power of two |
| C244 | FilterNan | cases on NaN; induction over the additions with the old entries pushed out |
| C245 | SqpNan | fmax drops NaN; induction over the line search; powers of the step factor |
| C246 | AdmmNan | one NaN makes every entry of H x NaN; induction over the iterations |
| C60, C92-C96 | polymath helpers | identification with Mathlib's Chebyshev and Lagrange polynomials, modular arithmetic |
| C61 | ADMM and boxADMM side by side | simulation, step by step |
| C63, C70 | histories of solver objects | two runs in lockstep |
| C64, C65 | Ruiz loop | loop unrolling; counterexample |
| C66-C69, C71, C72 | SQP theory | KKT algebra, directional derivatives, loop invariants |
| C73 | projection | discrete orthogonality |
| C91 | `ODESolver` | case analysis over histories |

## Properties that are false of the code

These are proved in negated form, or as an equivalence that says when they hold (the theorems are listed in MANIFEST.json):
C12 (over-relaxation of boxADMM), C16 (Ruiz update), C19 (SR1 divides by zero), C20 (filter of depth 0), C22 (full filter), C29 (`poly_mul`),
C34 (Legendre matrix), C36 (cubic spline argument), C43 (gradient keeps old derivatives), C44 (inequality update), C46 (zero step), C49 and C85
(interpolation when the horizon does not start at zero or was changed), C51 (CARE ignores its cost), C52 (complex eigenvalues), C55 (assignment,
floor), C56 (second derivative), C59 (sparse Jacobian values), C60 (grid off the interval), C64, C65 (equilibration), C71 (multipliers at SOLVED),
C73 (top coefficient), C77, C80 (parameter blocks of Hessians), C83 (definiteness with parameters), C84 (node numbers), C86 (non-square `pinv`),
C87 (cross term), C91 (method switch), C93 (overflow), C95 (stale interpolator), C100 (multipliers read out of bounds), C102-C104 (accumulating or constant callbacks), C106 (cost scale), C108, C109,
C111, C112 (`reuse_pattern` outside its conditions), C114, C115 (OSQP adapter: residuals, repeated cold calls), C116, C117 (qpmad adapter: multipliers),
C120, C121 (identification cost, function object), C122 (derivatives of functions), C123, C125 (modes without input), C126 (index range, derivatives),
C127 (final constraints), C128 (scaling of parameters), C129 (slack variables), C130, C131 (derivatives in constraints and cost), C132 (refused options), C133 (scaling of soft constraints), C134 (guess), C135 (index range),
C136 (outputs), C137 (weights), C140 (control weight), C142 (restart), C143 (late scaling), C144 (path error),
C147 (infeasible states), C150 (open paths), C151 (virtual state, cost), C152 (late velocity), C153 (closest point),
C157 (scaling), C158 (arguments), C159 (first program), C160 (endless loop), C161 (rescaled step), C162 (dynamic and nonsymmetric matrices), C168 (crossed bounds), C170 and C171 (large dense problems), C175 (fast local convergence with the line search), C177 (the symmetrised guess of the Riccati solver), C178 (stability under lqr of control/lqr.hpp), C180 (success of the sparse solver when started at a solution), C188 (termination of ADMM with adaptive_rho), C192 (accuracy of SQP when the QP solver fails), C198 (generic interpolator with Eigen types), C199 (adaptive step size of boxADMM), C206 (the KKT matrix of boxADMM in floating point),
C208 (cost() of SQP), C210 (the bounds of SQP in floating point), C216 (filter line search in a second solve), C220 (eigenvalue mirroring: positive part with repeated eigenvalues, lower bound on the curvature),
C221-C223 (older collocation classes: objects constructed from functors, derivatives with respect to the parameters),
C224 (older sparse collocation class: a second linearisation with the same matrix, objects constructed from a functor),
C226 (changing solver options after construction; options of PSODESolver),
C227 (termination of sparse solvers with `adaptive_rho`),
C229 (equilibrated columns; sparse Hessians with an empty column),
C230 (wheel base of the example robot; kinematics and output map of the example kite),
C231 (optimal control with Legendre collocation), C232 (the projected gradient prototype), C234 (the trust-region prototype), C236 (settings out of range are rejected), C238 (options of ODESolver take effect), C239 (settings of the QP solvers out of range are rejected), C241 (the results of the Ipopt interface can be read after every call), C243 (node times are distinct, with rounding), C244 (the filter rejects NaN), C245 (NaN constraints are not reported as feasible).

In C45 the returned "Lagrangian value" is the cost alone; the property is therefore about the gradient.
