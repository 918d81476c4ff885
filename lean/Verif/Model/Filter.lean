import Mathlib.Algebra.Order.Field.Basic
import Mathlib.Data.List.Basic

/-!
# Line-search filter

Model of `/repo/src/solvers/line_search.hpp`.

Simplifications: the scalar type is an ordered field (no rounding, no NaN); `std::list` is a Lean list whose head is
`front()`. `print` (lines 41-49) is not modelled.
-/

namespace PolyMPC.Filter

variable {K : Type*} [Field K] [LinearOrder K]

/-- A filter entry: `(cost, constraint violation)`; `filter_pair_t`, line_search.hpp:35. -/
abbrev Entry (K : Type*) := K × K

/-- The data members of `LSFilter`, line_search.hpp:37-39. -/
structure LSFilter (K : Type*) where
  /-- `m_filter`, line 37, front first -/
  entries : List (Entry K)
  /-- `max_depth`, line 38 -/
  maxDepth : ℤ
  /-- `beta`, line 39 -/
  beta : K

/-- A default constructed filter, line_search.hpp:37-39 (`max_depth{10}`, `beta{1e-5}`). -/
def LSFilter.default : LSFilter K := { entries := [], maxDepth := 10, beta := 1 / 100000 }

/-- `dominated_by::operator()`, line_search.hpp:24-27: the candidate is no better than `(cost, constraint)`. -/
def dominatedBy (cost constraint : K) (candidate : Entry K) : Bool :=
  decide (candidate.1 ≥ cost) && decide (candidate.2 ≥ constraint)

/-- `LSFilter::is_dominated`, line_search.hpp:54-64 (loop with early return). -/
def isDominatedLoop (cost constraint : K) : List (Entry K) → Bool
  | [] => false
  | e :: rest =>
    if e.1 ≤ cost ∧ e.2 ≤ constraint then true else isDominatedLoop cost constraint rest

/-- `LSFilter::is_dominated`, line_search.hpp:54-64. -/
def LSFilter.isDominated (f : LSFilter K) (cost constraint : K) : Bool :=
  isDominatedLoop cost constraint f.entries

/-- `LSFilter::is_acceptable`, line_search.hpp:66-75 (loop with early return). -/
def isAcceptableLoop (beta cost constraint : K) : List (Entry K) → Bool
  | [] => true
  | e :: rest =>
    if e.1 - beta * e.2 ≤ cost ∧ e.2 - beta * e.2 ≤ constraint then false
    else isAcceptableLoop beta cost constraint rest

/-- `LSFilter::is_acceptable`, line_search.hpp:66-75. -/
def LSFilter.isAcceptable (f : LSFilter K) (cost constraint : K) : Bool :=
  isAcceptableLoop f.beta cost constraint f.entries

/-- The comparison `m_filter.size() < max_depth`, line_search.hpp:79. The left side is `size_t`, the right side `int`,
so a negative depth is converted to `2^64 + max_depth`. -/
def sizeLtDepth (size : ℕ) (maxDepth : ℤ) : Bool :=
  decide ((size : ℤ) < if maxDepth < 0 then 2 ^ 64 + maxDepth else maxDepth)

/-- `std::list::pop_back`; undefined behaviour (`none`) on an empty list. -/
def popBack (l : List (Entry K)) : Option (List (Entry K)) :=
  match l with
  | [] => none
  | e :: rest => some ((e :: rest).dropLast)

/-- `LSFilter::add`, line_search.hpp:77-92. `none` is undefined behaviour (`pop_back` on an empty list). -/
def LSFilter.add (f : LSFilter K) (cost constraint : K) : Option (LSFilter K) :=
  if sizeLtDepth f.entries.length f.maxDepth then
    some { f with entries := (cost, constraint) :: f.entries.filter (fun e => !dominatedBy cost constraint e) }
  else
    match popBack f.entries with
    | none => none
    | some l => some { f with entries := (cost, constraint) :: l }

/-- `LSFilter::remove_one`, line_search.hpp:94-97; `none` is undefined behaviour. -/
def LSFilter.removeOne (f : LSFilter K) : Option (LSFilter K) :=
  match popBack f.entries with
  | none => none
  | some l => some { f with entries := l }

/-- `LSFilter::clear`, line_search.hpp:52. -/
def LSFilter.clear (f : LSFilter K) : LSFilter K := { f with entries := [] }

/-- The public operations that change a filter. -/
inductive Op (K : Type*) where
  | add (cost constraint : K)
  | removeOne
  | clear

/-- One operation on a filter object. -/
def LSFilter.step (f : LSFilter K) : Op K → Option (LSFilter K)
  | .add c v => f.add c v
  | .removeOne => f.removeOne
  | .clear => some f.clear

/-- A history of operations on one filter object; `none` as soon as undefined behaviour is reached. -/
def LSFilter.run (f : LSFilter K) : List (Op K) → Option (LSFilter K)
  | [] => some f
  | op :: ops => (f.step op).bind (fun f' => f'.run ops)

end PolyMPC.Filter
