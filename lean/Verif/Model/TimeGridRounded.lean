import Verif.Model.Ocp
import Verif.Model.Rounding

/-!
# Time grid in floating-point arithmetic

`set_time_limits` (`/repo/src/control/continuous_ocp.hpp`) with the operations of an arbitrary arithmetic `Arith`. The
products are followed by sums and may be contracted (`mulAdd`). The number of segments, the index of the segment and the
factors of `Ones()` are exact. The nodes of the approximation are the stored numbers.
-/

namespace PolyMPC.TimeR
open PolyMPC.Rounding PolyMPC.Ocp

/-- `t_length`, continuous_ocp.hpp:153. -/
noncomputable def segLength (ar : Arith) (S : ℕ) (t0 tf : ℝ) : ℝ := ar.div (ar.sub tf t0) S

/-- One entry of the assignment in continuous_ocp.hpp:156-157: segment `i`, node `τ`. -/
noncomputable def nodeTime (ar : Arith) (S : ℕ) (t0 tf : ℝ) (i : ℕ) (τ : ℝ) : ℝ :=
  let len := segLength ar S t0 tf
  let shift := ar.div len 2
  ar.mulAdd (ar.div len 2) τ (ar.mulAdd i len (ar.add t0 shift))

/-- `time_nodes` after `set_time_limits`, continuous_ocp.hpp:153-158 (and 50-55); `old` is what it held before. -/
noncomputable def timeGrid (ar : Arith) (d : Dims) (nodes : ℕ → ℝ) (t0 tf : ℝ) (old : ℕ → ℝ) : ℕ → ℝ :=
  let grid := loop d.S (fun i tn => setSeg tn (i * d.N) (d.N + 1) fun j => nodeTime ar d.S t0 tf i (nodes (d.N - j))) old
  fun k => grid (d.NN - 1 - k)

end PolyMPC.TimeR
