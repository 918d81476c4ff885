import Verif.Model.Filter
import Verif.Spec.Filter
import Mathlib.Tactic.Linarith
import Mathlib.Tactic.Ring

/-! Helper lemmas for the line-search filter. -/

set_option linter.unusedSectionVars false

namespace PolyMPC.Filter
open PolyMPC.Spec.Filter

variable {K : Type*} [Field K] [LinearOrder K]

theorem isDominatedLoop_iff (c v : K) (l : List (Entry K)) :
    isDominatedLoop c v l = true ↔ ∃ e ∈ l, e.1 ≤ c ∧ e.2 ≤ v := by
  induction l with
  | nil => simp [isDominatedLoop]
  | cons e l ih =>
    unfold isDominatedLoop
    split
    · rename_i h; simp [h]
    · rename_i h; rw [ih]; simp [h]

theorem isAcceptableLoop_iff (b c v : K) (l : List (Entry K)) :
    isAcceptableLoop b c v l = true ↔ ∀ e ∈ l, ¬ (e.1 - b * e.2 ≤ c ∧ e.2 - b * e.2 ≤ v) := by
  induction l with
  | nil => simp [isAcceptableLoop]
  | cons e l ih =>
    unfold isAcceptableLoop
    split
    · rename_i h; simp only [Bool.false_eq_true, false_iff]; intro hh; exact hh e (by simp) h
    · rename_i h; rw [ih]
      simp only [List.mem_cons, forall_eq_or_imp, h, not_false_eq_true, true_and]

theorem popBack_eq_none {l : List (Entry K)} : popBack l = none ↔ l = [] := by
  cases l <;> simp [popBack]

theorem popBack_eq_some {l l' : List (Entry K)} :
    popBack l = some l' ↔ l ≠ [] ∧ l' = l.dropLast := by
  cases l with
  | nil => simp [popBack]
  | cons a t => simp only [popBack, Option.some.injEq]; constructor
                · intro h; exact ⟨by simp, h.symm⟩
                · intro h; exact h.2.symm

theorem dominatedBy_iff (c v : K) (e : Entry K) :
    dominatedBy c v e = true ↔ c ≤ e.1 ∧ v ≤ e.2 := by
  simp [dominatedBy]

theorem sizeLtDepth_iff {n : ℕ} {d : ℤ} (h : 0 ≤ d) : sizeLtDepth n d = true ↔ (n : ℤ) < d := by
  simp [sizeLtDepth, not_lt.mpr h]

theorem add_room {f : LSFilter K} {c v : K} (h : sizeLtDepth f.entries.length f.maxDepth = true) :
    f.add c v = some { f with entries := (c, v) :: f.entries.filter (fun e => !dominatedBy c v e) } := by
  simp [LSFilter.add, h]

theorem add_full {f : LSFilter K} {c v : K} (h : sizeLtDepth f.entries.length f.maxDepth = false)
    (hne : f.entries ≠ []) :
    f.add c v = some { f with entries := (c, v) :: f.entries.dropLast } := by
  have : popBack f.entries = some f.entries.dropLast := popBack_eq_some.mpr ⟨hne, rfl⟩
  simp [LSFilter.add, h, this]

theorem add_frame {f f' : LSFilter K} {c v : K} (h : f.add c v = some f') :
    f'.maxDepth = f.maxDepth ∧ f'.beta = f.beta := by
  unfold LSFilter.add at h
  split at h
  · cases h; simp
  · split at h
    · cases h
    · cases h; simp

theorem add_head {f f' : LSFilter K} {c v : K} (h : f.add c v = some f') :
    (c, v) ∈ f'.entries := by
  unfold LSFilter.add at h
  split at h
  · cases h; simp
  · split at h
    · cases h
    · cases h; simp

theorem step_frame {f f' : LSFilter K} {op : Op K} (h : f.step op = some f') :
    f'.maxDepth = f.maxDepth ∧ f'.beta = f.beta := by
  cases op with
  | add c v => exact add_frame h
  | removeOne =>
    simp only [LSFilter.step, LSFilter.removeOne] at h
    split at h
    · cases h
    · cases h; simp
  | clear => simp only [LSFilter.step, LSFilter.clear] at h; cases h; simp

theorem step_length {f f' : LSFilter K} {op : Op K} (hd : 0 < f.maxDepth)
    (hl : (f.entries.length : ℤ) ≤ f.maxDepth) (h : f.step op = some f') :
    (f'.entries.length : ℤ) ≤ f.maxDepth := by
  cases op with
  | add c v =>
    simp only [LSFilter.step, LSFilter.add] at h
    split at h
    · rename_i hs
      rw [sizeLtDepth_iff hd.le] at hs
      cases h
      have := List.length_filter_le (fun e => !dominatedBy c v e) f.entries
      simp only [List.length_cons]
      push_cast
      omega
    · split at h
      · cases h
      · rename_i l hl'
        cases h
        obtain ⟨hne, rfl⟩ := popBack_eq_some.mp hl'
        have : 0 < f.entries.length := List.length_pos_iff.mpr hne
        simp only [List.length_cons, List.length_dropLast]
        omega
  | removeOne =>
    simp only [LSFilter.step, LSFilter.removeOne] at h
    split at h
    · cases h
    · rename_i l hl'
      cases h
      obtain ⟨hne, rfl⟩ := popBack_eq_some.mp hl'
      simp only [List.length_dropLast]
      omega
  | clear => simp only [LSFilter.step, LSFilter.clear] at h; cases h; simp; omega

end PolyMPC.Filter
