import Verif.Model.QuasiNewton

/-!
# The damped BFGS update restricted to a pattern
-/

namespace PolyMPC.Spec
open Matrix QuasiNewton

variable {K : Type*} [Field K] [LinearOrder K] {n : ℕ}

/-- The damped BFGS formula for the pairs of variables in `L`, zero elsewhere; undefined if one of the divisors is zero. -/
def maskedBfgs (L : Fin n → Fin n → Prop) [∀ i j, Decidable (L i j)] (B : Matrix (Fin n) (Fin n) K) (s y : Fin n → K) : Option (Matrix (Fin n) (Fin n) K) :=
  if s ⬝ᵥ B *ᵥ s = 0 then none else
  (dampedPair (B *ᵥ s) s y).bind fun p => if p.2 = 0 then none else
    some (Matrix.of fun i j => if L i j then B i j - (B *ᵥ s) i * (B *ᵥ s) j / (s ⬝ᵥ B *ᵥ s) + p.1 i * p.1 j / p.2 else 0)

end PolyMPC.Spec
