import Verif.Model.Storage

/-! # What a user may expect of a class with statically sized members -/

namespace PolyMPC.Spec
open Storage

/-- The class compiles, and after construction any number of calls runs without an operation on objects of unsuitable size. -/
structure Usable {V : Type} [DecidableEq V] (limit size : ℕ) (ty : V → Ty) (ctor call : Cmd V) : Prop where
  accepted : ∀ v, (ty v).Accepted limit size
  ctorCompiles : ctor.Compiles ty
  callCompiles : call.Compiles ty
  runs : ∀ r, Exec ty (.seq ctor (.many call)) (fun v => (ty v).initial) r → r ≠ none

/-- The first call after construction fails, whatever its data. -/
def FirstCallFails {V : Type} [DecidableEq V] (ty : V → Ty) (ctor call : Cmd V) : Prop :=
  ∀ σ r, Exec ty ctor (fun v => (ty v).initial) (some σ) → Exec ty call σ r → r = none

end PolyMPC.Spec
