import Mathlib.Algebra.Order.Field.Rat
import Verif.Model.FilterNan
import Verif.Props.Filter

/-!
# Property C244: NaN and the line-search filter
-/

set_option linter.unusedSectionVars false

namespace PolyMPC.FilterNan
open PolyMPC.Filter

variable {K : Type*} [Field K] [LinearOrder K]

/-- A filter without NaN. -/
def ofFilter (f : LSFilter K) : FilterN K := ⟨f.entries.map fun e => (some e.1, some e.2), f.maxDepth, f.beta⟩

/-- An entry with NaN in it. -/
def HasNan (e : EntryN K) : Prop := e.1 = none ∨ e.2 = none

/-- Without NaN this is the filter of C20-C22. -/
theorem nan_free (f : LSFilter K) (c v : K) :
    isDominated (ofFilter f) (some c) (some v) = f.isDominated c v ∧
    isAcceptable (ofFilter f) (some c) (some v) = f.isAcceptable c v ∧
    add (ofFilter f) (some c) (some v) = (f.add c v).map ofFilter := by
  refine ⟨?_, ?_, ?_⟩
  · unfold isDominated LSFilter.isDominated ofFilter
    induction f.entries with
    | nil => rfl
    | cons e l ih =>
      simp only [List.map_cons, List.any_cons, isDominatedLoop]
      simp only at ih
      rw [ih]
      by_cases h : e.1 ≤ c ∧ e.2 ≤ v
      · rw [if_pos h]; simp [leN, h.1, h.2]
      · rw [if_neg h]
        have : (leN (some e.1) (some c) && leN (some e.2) (some v)) = false := by
          simpa [leN, not_and] using h
        rw [this, Bool.false_or]
  · unfold isAcceptable LSFilter.isAcceptable ofFilter
    induction f.entries with
    | nil => rfl
    | cons e l ih =>
      simp only [List.map_cons, List.any_cons, isAcceptableLoop, Bool.not_or]
      simp only at ih
      rw [ih]
      by_cases h : e.1 - f.beta * e.2 ≤ c ∧ e.2 - f.beta * e.2 ≤ v
      · rw [if_pos h]; simp [leN, subMul, h.1, h.2]
      · rw [if_neg h]
        have : (leN (subMul f.beta (some e.1) (some e.2)) (some c) && leN (subMul f.beta (some e.2) (some e.2)) (some v)) =
            false := by
          simpa [leN, subMul, not_and] using h
        rw [this, Bool.not_false, Bool.true_and]
  · unfold add LSFilter.add
    have hl : (ofFilter f).entries.length = f.entries.length := by simp [ofFilter]
    rw [hl]
    have hd : (ofFilter f).maxDepth = f.maxDepth := rfl
    rw [hd]
    cases sizeLtDepth f.entries.length f.maxDepth with
    | true =>
      simp only [if_true, Option.map_some, ofFilter, List.map_cons, List.filter_map]
      rfl
    | false =>
      simp only [Bool.false_eq_true, if_false]
      cases he : f.entries with
      | nil => simp [ofFilter, he, popBack]
      | cons a l => simp [ofFilter, he, popBack, List.map_dropLast]

/-- C244. A trial point whose cost or violation is NaN is acceptable to every filter, and never dominated. -/
theorem nan_acceptable (f : FilterN K) (e : EntryN K) (h : HasNan e) :
    isAcceptable f e.1 e.2 = true ∧ isDominated f e.1 e.2 = false := by
  have hr : ∀ a : Option K, leN a none = false := fun a => by cases a <;> rfl
  unfold isAcceptable isDominated
  constructor
  · rw [Bool.not_eq_true', List.any_eq_false]
    intro x _
    rcases h with h | h <;> rw [h, hr] <;> simp
  · rw [List.any_eq_false]
    intro x _
    rcases h with h | h <;> rw [h, hr] <;> simp

/-- C244. Entries with NaN reject nothing: acceptance and domination are decided by the other entries. -/
theorem nan_entries_ignored (f : FilterN K) (c v : Option K) (p : EntryN K → Bool) (hp : ∀ e, p e = false → HasNan e) :
    isAcceptable f c v = isAcceptable { f with entries := f.entries.filter p } c v ∧
    isDominated f c v = isDominated { f with entries := f.entries.filter p } c v := by
  have hl : ∀ a : Option K, leN none a = false := fun a => rfl
  have key : ∀ (q : EntryN K → Bool), (∀ e, HasNan e → q e = false) → ∀ l : List (EntryN K),
      l.any q = (l.filter p).any q := by
    intro q hq l
    induction l with
    | nil => rfl
    | cons e l ih =>
      cases he : p e with
      | true => rw [List.filter_cons_of_pos he, List.any_cons, List.any_cons, ih]
      | false =>
        rw [List.filter_cons_of_neg (by rw [he]; simp), List.any_cons, hq e (hp e he), Bool.false_or, ih]
  unfold isAcceptable isDominated
  constructor
  · refine congrArg _ (key _ ?_ _)
    rintro ⟨a, b⟩ (h | h)
    · simp only at h; subst h; simp [subMul, hl]
    · simp only at h; subst h; cases a <;> simp [subMul, hl]
  · refine key _ ?_ _
    rintro ⟨a, b⟩ (h | h)
    · simp only at h; subst h; simp [hl]
    · simp only at h; subst h; cases a <;> cases c <;> simp [leN]

/-- C244. An entry with NaN is never displaced by a better point: while there is room, `add` keeps it. -/
theorem nan_entry_stays {f f' : FilterN K} {c v : Option K} (hroom : sizeLtDepth f.entries.length f.maxDepth = true)
    (h : add f c v = some f') {e : EntryN K} (he : e ∈ f.entries) (hn : HasNan e) : e ∈ f'.entries := by
  unfold add at h
  rw [if_pos hroom] at h
  cases h
  refine List.mem_cons_of_mem _ (List.mem_filter.mpr ⟨he, ?_⟩)
  have hr : ∀ a : Option K, leN a none = false := fun a => by cases a <;> rfl
  rcases hn with h | h <;> rw [h, hr] <;> simp

/-- Adding a point with NaN removes no entry other than by overflow. -/
theorem nan_add {f : FilterN K} (hd : 0 < f.maxDepth) (e : EntryN K) (hn : HasNan e) :
    ∃ f', add f e.1 e.2 = some f' ∧ f'.maxDepth = f.maxDepth ∧ f'.beta = f.beta ∧
      f'.entries = e :: (if (f.entries.length : ℤ) < f.maxDepth then f.entries else f.entries.dropLast) := by
  have hl : ∀ a : Option K, leN none a = false := fun a => rfl
  unfold add
  have hs : sizeLtDepth f.entries.length f.maxDepth = decide ((f.entries.length : ℤ) < f.maxDepth) := by
    unfold sizeLtDepth
    rw [if_neg (by omega)]
  rw [hs]
  by_cases h : (f.entries.length : ℤ) < f.maxDepth
  · rw [if_pos (by simpa using h)]
    refine ⟨_, rfl, rfl, rfl, ?_⟩
    rw [if_pos h]
    show e :: List.filter _ f.entries = e :: f.entries
    congr 1
    rw [List.filter_eq_self]
    intro x _
    rcases hn with h | h
    · rw [h, hl]; simp
    · rw [h, hl]; simp
  · rw [if_neg (by simpa using h), if_neg (by
      intro h0
      rw [h0] at h
      simp at h
      omega)]
    exact ⟨_, rfl, rfl, rfl, by rw [if_neg h]⟩

/-- C244. `max_depth` trial points with NaN, each acceptable, empty the filter of everything it knew: afterwards every
point is acceptable. -/
theorem nan_flood (f : FilterN K) (hd : 0 < f.maxDepth) (hlen : (f.entries.length : ℤ) ≤ f.maxDepth)
    (l : List (EntryN K)) (hl : (l.length : ℤ) = f.maxDepth) (hn : ∀ e ∈ l, HasNan e) :
    ∃ f', addAll f l = some f' ∧ ∀ c v, isAcceptable f' c v = true := by
  -- entries are the new points followed by a beginning of the old ones
  have key : ∀ (l : List (EntryN K)) (f : FilterN K) (old : List (EntryN K)) (new : List (EntryN K)), 0 < f.maxDepth →
      f.entries = new ++ old → (∀ e ∈ new, HasNan e) → (f.entries.length : ℤ) ≤ f.maxDepth →
      (new.length + l.length : ℤ) ≤ f.maxDepth → (∀ e ∈ l, HasNan e) →
      ∃ f' new' old', addAll f l = some f' ∧ f'.entries = new' ++ old' ∧ (∀ e ∈ new', HasNan e) ∧
        new'.length = new.length + l.length ∧ (f'.entries.length : ℤ) ≤ f.maxDepth := by
    intro l
    induction l with
    | nil =>
      intro f old new _ he hn hle _ _
      exact ⟨f, new, old, rfl, he, hn, rfl, hle⟩
    | cons e l ih =>
      intro f old new hd he hnew hle hsum hl
      obtain ⟨f1, h1, hm, _, h2⟩ := nan_add hd e (hl e (by simp))
      have hlen : f.entries.length = new.length + old.length := by rw [he, List.length_append]
      simp only [List.length_cons] at hsum
      push_cast at hsum
      have step : ∃ old1, f1.entries = (e :: new) ++ old1 ∧ (f1.entries.length : ℤ) ≤ f1.maxDepth := by
        by_cases h : (f.entries.length : ℤ) < f.maxDepth
        · rw [if_pos h] at h2
          refine ⟨old, by rw [h2, he]; rfl, ?_⟩
          rw [h2, hm, List.length_cons]; push_cast; omega
        · rw [if_neg h] at h2
          have ho : old ≠ [] := by
            rintro rfl
            simp at hlen
            omega
          refine ⟨old.dropLast, by rw [h2, he, List.dropLast_append_of_ne_nil ho]; rfl, ?_⟩
          have : 1 ≤ f.entries.length := by
            have := List.length_pos_of_ne_nil ho
            omega
          rw [h2, hm, List.length_cons, List.length_dropLast]
          push_cast [Nat.cast_sub this]
          omega
      obtain ⟨old1, e1, l1⟩ := step
      obtain ⟨f', new', old', a1, a2, a3, a4, a5⟩ := ih f1 old1 (e :: new) (by rw [hm]; exact hd) e1
        (by
          intro x hx
          rcases List.mem_cons.mp hx with rfl | hx
          · exact hl _ (by simp)
          · exact hnew x hx) l1 (by rw [hm, List.length_cons]; push_cast; omega) (fun x hx => hl x (by simp [hx]))
      refine ⟨f', new', old', ?_, a2, a3, ?_, ?_⟩
      · simp only [addAll, h1, Option.bind_some, a1]
      · rw [a4, List.length_cons, List.length_cons]; omega
      · rw [← hm]; exact a5
  obtain ⟨f', new', old', a1, a2, a3, a4, a5⟩ := key l f f.entries [] hd rfl (by simp) hlen
    (by simp only [List.length_nil]; push_cast; omega) hn
  refine ⟨f', a1, fun c v => ?_⟩
  have ho : old' = [] := by
    rw [a2, List.length_append, a4] at a5
    simp only [List.length_nil] at a5
    push_cast at a5
    exact List.length_eq_zero_iff.mp (by omega)
  rw [(nan_entries_ignored f' c v (fun e => e.1.isSome && e.2.isSome) (fun e he => ?_)).1]
  · have hall : ∀ e ∈ f'.entries, HasNan e := by rw [a2, ho, List.append_nil]; exact a3
    have hnil : f'.entries.filter (fun e => e.1.isSome && e.2.isSome) = [] := by
      rw [List.filter_eq_nil_iff]
      intro e he
      rcases hall e he with h | h <;> rw [h] <;> simp
    rw [hnil]
    rfl
  · simp only [Bool.and_eq_false_iff, Option.isSome_eq_false_iff, Option.isNone_iff_eq_none] at he
    exact he

/-! ## Non-vacuity -/

/-- A filter of depth two that knows two feasible points. -/
def nanFilter : FilterN ℚ := ⟨[(some 1, some 0), (some 2, some 0)], 2, 1 / 100000⟩

/-- A worse point is rejected, one with NaN is accepted; after two of these the worse point is accepted as well. -/
example : isAcceptable nanFilter (some 5) (some 1) = false ∧ isAcceptable nanFilter none (some 1) = true ∧
    (addAll nanFilter [(none, some 1), (some 3, none)]).map (fun f => (f.entries.length, isAcceptable f (some 5) (some 1))) =
      some (2, true) := by
  refine ⟨by decide +kernel, by decide +kernel, by decide +kernel⟩

/-- With room in the filter, an entry with NaN survives a point better than everything. -/
example : (addAll (⟨[(none, some 1), (some 2, some 1)], 10, 0⟩ : FilterN ℚ) [(some 0, some 0)]).map (fun f => f.entries) =
    some [(some 0, some 0), (none, some 1)] := by decide +kernel

end PolyMPC.FilterNan
