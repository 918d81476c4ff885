import Verif.Model.Filter

/-!
# Line-search filter with NaN

`/repo/src/solvers/line_search.hpp` where cost and violation may be NaN, as they are when the problem is evaluated outside
its domain. A number of the scalar type is `some x`, NaN is `none`. Arithmetic with NaN gives NaN and comparisons with NaN
are false. Infinities and rounding are not modelled; `beta` is a number.
-/

namespace PolyMPC.FilterNan
open PolyMPC.Filter

variable {K : Type*} [Field K] [LinearOrder K]

/-- `a <= b`: false if one of them is NaN (line_search.hpp:26, 60, 71). -/
def leN : Option K → Option K → Bool
  | some a, some b => decide (a ≤ b)
  | _, _ => false

/-- `a - beta * b`, line_search.hpp:71. -/
def subMul (beta : K) (a b : Option K) : Option K := a.bind fun a => b.map fun b => a - beta * b

/-- A filter entry, line_search.hpp:35. -/
abbrev EntryN (K : Type*) := Option K × Option K

/-- Data members, line_search.hpp:37-39. -/
structure FilterN (K : Type*) where
  entries : List (EntryN K)
  maxDepth : ℤ
  beta : K

/-- `is_dominated`, line_search.hpp:54-64. -/
def isDominated (f : FilterN K) (c v : Option K) : Bool := f.entries.any fun e => leN e.1 c && leN e.2 v

/-- `is_acceptable`, line_search.hpp:66-75. -/
def isAcceptable (f : FilterN K) (c v : Option K) : Bool :=
  !f.entries.any fun e => leN (subMul f.beta e.1 e.2) c && leN (subMul f.beta e.2 e.2) v

/-- `add`, line_search.hpp:77-92, with `dominated_by` (24-27); `none` is `pop_back` on an empty list. -/
def add (f : FilterN K) (c v : Option K) : Option (FilterN K) :=
  if sizeLtDepth f.entries.length f.maxDepth then
    some { f with entries := (c, v) :: f.entries.filter (fun e => !(leN c e.1 && leN v e.2)) }
  else if f.entries = [] then none
  else some { f with entries := (c, v) :: f.entries.dropLast }

/-- Several calls of `add`, line_search.hpp:77-92. -/
def addAll (f : FilterN K) : List (EntryN K) → Option (FilterN K)
  | [] => some f
  | e :: l => (add f e.1 e.2).bind fun f' => addAll f' l

end PolyMPC.FilterNan
