import Verif.Model.SqpSparse

/-!
# The regularisation of the Hessian used with optimal control problems

The overrides `hessian_regularisation_dense_impl` and `hessian_regularisation_sparse_impl` of tests/control/dense_sparse_compare.cpp:109-139,
tests/control/nonlinear_constraints_test.cpp:102-131 and tests/control/minimal_time_test.cpp:90-119 (also tests/solvers/sqp/codegen_test.cpp:345-358).

`delta` is the constant added to the radius (0.01; 0.001 in dense_sparse_compare.cpp:137). `ab` is the function `abs` that the unqualified call
in dense_sparse_compare.cpp:117 and 132 resolves to: depending on the headers included, the one for floating-point numbers or `abs(int)`, which
truncates its argument. The theorems assume `ab x ≤ |x|`, true of both.
-/

namespace PolyMPC.Gershgorin
open Sparse Sparse.Csc

variable {n : ℕ}

/-- The body of the loop, dense_sparse_compare.cpp:114-121. -/
noncomputable def denseStep (ab : ℝ → ℝ) (delta : ℝ) (H : Matrix (Fin n) (Fin n) ℝ) (i : Fin n) : Matrix (Fin n) (Fin n) ℝ :=
  let aii := H i i
  let ri := ∑ r, |H r i| - ab aii
  if aii - ri ≤ 0 then Matrix.of fun r c => if r = i ∧ c = i then H r c + ((ri - aii) + delta) else H r c else H

/-- `hessian_regularisation_dense_impl`, dense_sparse_compare.cpp:109-122. -/
noncomputable def dense (ab : ℝ → ℝ) (delta : ℝ) (H : Matrix (Fin n) (Fin n) ℝ) : Matrix (Fin n) (Fin n) ℝ := (List.finRange n).foldl (denseStep ab delta) H

/-- The body of the loop, dense_sparse_compare.cpp:131-137. The sum runs over the stored entries of the column. `coeffRef` of an entry that is not stored would insert it; that is not modelled
(`none`), the patterns of the Hessian contain the diagonal (`SqpSparse.hesPat_diag`). -/
noncomputable def sparseStep (ab : ℝ → ℝ) (delta : ℝ) (H : Csc ℝ) (i : ℕ) : Option (Csc ℝ) :=
  let aii := H.coeff i i
  let ri := ((H.col i).map fun e => |e.2|).sum - ab aii
  if aii - ri ≤ 0 then H.coeffAdd i i ((ri - aii) + delta) else some H

/-- `hessian_regularisation_sparse_impl`, dense_sparse_compare.cpp:124-139, for a matrix with `n` columns. -/
noncomputable def sparse (ab : ℝ → ℝ) (delta : ℝ) (n : ℕ) (H : Csc ℝ) : Option (Csc ℝ) := (List.range n).foldlM (sparseStep ab delta) H

/-- `abs(int)` applied to a floating-point number. -/
noncomputable def absInt (x : ℝ) : ℝ := |((if 0 ≤ x then ⌊x⌋ else ⌈x⌉ : ℤ) : ℝ)|

end PolyMPC.Gershgorin
