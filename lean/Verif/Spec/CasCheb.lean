import Mathlib.Analysis.SpecialFunctions.Trigonometric.Basic
import Verif.Spec.Ocp

/-! # Grid of the symbolic transcription

Vocabulary in which the properties of the symbolic Chebyshev transcription are stated; nothing here refers to the code. -/

namespace PolyMPC.Spec

/-- Time of node `l` of segment `s`, counted from the end of the horizon `[t0, tf]` of `S` equal segments with the extrema of the
Chebyshev polynomial of degree `N` as nodes. -/
noncomputable def segTime (S N : ℕ) (t0 tf : ℝ) (s l : ℕ) : ℝ :=
  tf - s * ((tf - t0) / S) - (1 - Real.cos (l * (Real.pi / N))) * ((tf - t0) / S / 2)

end PolyMPC.Spec
