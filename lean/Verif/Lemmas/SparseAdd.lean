import Verif.Lemmas.Sparse

/-! # Sparse matrices: groups of additions and copies -/

namespace PolyMPC.Sparse
open Csc

set_option linter.unusedSectionVars false

variable {K : Type}

/-- What an addition contributes to the entry of rank `ρ` in column `c`. -/
def opInc [Zero K] (o : Op K) (c ρ : ℕ) : K :=
  match o with
  | .add c' off k f => if c = c' ∧ off ≤ ρ ∧ ρ < off + k then f (ρ - off) else 0
  | _ => 0

/-- An addition that stays within one column. -/
def AddFits (start : ℕ → ℕ) (n : ℕ) (o : Op K) : Prop :=
  ∃ c off k f, o = Op.add c off k f ∧ c < n ∧ start c + off + k ≤ start (c + 1)

theorem Holds.addAll [AddMonoid K] {n m : ℕ} {P : ℕ → ℕ → Bool} (l : List (Op K)) {A : Csc K} {M : ℕ → ℕ → K} (h : Holds A n m P M)
    (hl : ∀ o ∈ l, AddFits A.start n o) :
    ∃ A', runOps n l A = some A' ∧ A'.start = A.start ∧
      Holds A' n m P fun r c => M r c + (l.map fun o => opInc o c (rank (P c) r)).sum := by
  induction l generalizing A M with
  | nil => exact ⟨A, rfl, rfl, h.congr fun c _ r _ _ => by simp⟩
  | cons o l ih =>
    obtain ⟨c0, off, k, f, rfl, hc, hf⟩ := hl o List.mem_cons_self
    obtain ⟨A1, e1, s1, _, h1⟩ := h.addCol f hc hf
    obtain ⟨A2, e2, s2, h2⟩ := ih h1 (fun o ho => by rw [s1]; exact hl o (List.mem_cons_of_mem _ ho))
    refine ⟨A2, ?_, s2.trans s1, h2.congr fun c _ r _ _ => ?_⟩
    · rw [runOps_cons]; show (A.add n (A.start c0 + off) k f).bind _ = _; rw [e1]; exact e2
    · rw [List.map_cons, List.sum_cons, ← add_assoc]
      congr 1
      show (if _ then _ else _) = M r c + (if _ then _ else _)
      by_cases hh : c = c0 ∧ off ≤ rank (P c) r ∧ rank (P c) r < off + k
      · rw [if_pos hh, if_pos hh]
      · rw [if_neg hh, if_neg hh, add_zero]

theorem sum_range_single [AddMonoid K] (n a : ℕ) (g : ℕ → K) (h : ∀ j < n, j ≠ a → g j = 0) :
    ((List.range n).map g).sum = if a < n then g a else 0 := by
  induction n with
  | zero => simp
  | succ n ih =>
    rw [List.range_succ, List.map_append, List.sum_append, ih fun j hj => h j (by omega)]
    simp only [List.map_cons, List.map_nil, List.sum_cons, List.sum_nil, add_zero]
    by_cases h1 : a = n
    · subst h1; rw [if_neg (by omega), if_pos (by omega), zero_add]
    · rw [h n (by omega) (by omega), add_zero]
      by_cases h2 : a < n
      · rw [if_pos h2, if_pos (by omega)]
      · rw [if_neg h2, if_neg (by omega)]

/-- The additions of a loop over consecutive columns. -/
theorem sum_group [AddMonoid K] (c0 nc off k : ℕ) (f : ℕ → ℕ → K) (c ρ : ℕ) :
    (((List.range nc).map fun j => Op.add (c0 + j) off k (f j)).map fun o => opInc o c ρ).sum
      = if (c0 ≤ c ∧ c < c0 + nc) ∧ off ≤ ρ ∧ ρ < off + k then f (c - c0) (ρ - off) else 0 := by
  rw [List.map_map, sum_range_single nc (c - c0)]
  · show (if c - c0 < nc then (if c = c0 + (c - c0) ∧ off ≤ ρ ∧ ρ < off + k then f (c - c0) (ρ - off) else 0) else 0) = _
    by_cases h1 : c0 ≤ c
    · have e : c = c0 + (c - c0) := by omega
      by_cases h2 : c - c0 < nc
      · rw [if_pos h2]
        by_cases h3 : off ≤ ρ ∧ ρ < off + k
        · rw [if_pos ⟨e, h3⟩, if_pos ⟨⟨h1, by omega⟩, h3⟩]
        · rw [if_neg (fun hh : _ ∧ _ => h3 hh.2), if_neg (fun hh : _ ∧ _ => h3 hh.2)]
      · rw [if_neg h2, if_neg (by omega)]
    · rw [if_neg (c := (c0 ≤ c ∧ c < c0 + nc) ∧ off ≤ ρ ∧ ρ < off + k) (by omega)]
      split_ifs with h2 h3
      · omega
      · rfl
      · rfl
  · intro j hj hne
    show (if c = c0 + j ∧ off ≤ ρ ∧ ρ < off + k then _ else _) = _
    rw [if_neg (by omega)]

theorem fits_group {start : ℕ → ℕ} {n c0 nc off k : ℕ} (f : ℕ → ℕ → K) (hn : c0 + nc ≤ n)
    (h : ∀ c, c0 ≤ c → c < c0 + nc → start c + off + k ≤ start (c + 1)) :
    ∀ o ∈ (List.range nc).map fun j => Op.add (c0 + j) off k (f j), AddFits start n o := by
  intro o ho
  obtain ⟨j, hj, rfl⟩ := List.mem_map.1 ho
  rw [List.mem_range] at hj
  exact ⟨_, _, _, _, rfl, by omega, h _ (by omega) (by omega)⟩

end PolyMPC.Sparse
