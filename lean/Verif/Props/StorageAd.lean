import Mathlib.Tactic.Ring
import Mathlib.Tactic.Linarith
import Mathlib.Tactic.NormNum
import Verif.Model.StorageAd

/-!
# C172: how large a problem the automatic differentiation variables allow
-/

namespace PolyMPC.StorageAd
open Ocp (Dims)

theorem le_ad1 {s : ℕ} (L : Layout s) (n : ℕ) : (n + 1) * s ≤ L.bytes (ad1 n) := by
  have h1 := L.mat .scalar n
  have h2 := L.ad .scalar n
  rw [L.scalar] at h1 h2
  rw [Nat.succ_mul]
  unfold ad1
  omega

theorem le_ad2 {s : ℕ} (L : Layout s) (n : ℕ) : (n + 1) ^ 2 * s ≤ L.bytes (ad2 n) := by
  have h1 := L.mat (ad1 n) n
  have h2 := L.ad (ad1 n) n
  have h3 := Nat.mul_le_mul_left (n + 1) (le_ad1 L n)
  rw [Nat.succ_mul n (L.bytes _)] at h3
  have e : (n + 1) ^ 2 * s = (n + 1) * ((n + 1) * s) := by ring
  rw [e]
  unfold ad2
  omega

/-- C172: a dense user-defined problem with `n` variables, `e` equality and `i` inequality constraints that compiles has at most `limit` bytes of
second order numbers in each of its three vectors, whatever the compiler's layout. -/
theorem nlp_accepted_necessary {s limit n e i : ℕ} (L : Layout s) (hl : limit ≠ 0) (h : ∀ t ∈ nlpObjects n e i, t.Accepted limit L) :
    n * (n + 1) ^ 2 * s ≤ limit ∧ e * (n + 1) ^ 2 * s ≤ limit ∧ i * (n + 1) ^ 2 * s ≤ limit := by
  have key : ∀ k, (CTy.mat (ad2 n) k).Accepted limit L → k * (n + 1) ^ 2 * s ≤ limit := by
    intro k hk
    have := hk.1.resolve_left hl
    calc k * (n + 1) ^ 2 * s = k * ((n + 1) ^ 2 * s) := by ring
      _ ≤ k * L.bytes (ad2 n) := Nat.mul_le_mul_left _ (le_ad2 L n)
      _ ≤ limit := this
  exact ⟨key n (h _ (by simp [nlpObjects])), key e (h _ (by simp [nlpObjects])), key i (h _ (by simp [nlpObjects]))⟩

theorem tight_ad1 (s n : ℕ) : (tight s).bytes (ad1 n) = (n + 1) * s := by
  simp only [tight, ad1, tightBytes]
  ring

theorem tight_ad2 (s n : ℕ) : (tight s).bytes (ad2 n) = (n + 1) ^ 2 * s := by
  simp only [tight, ad2, ad1, tightBytes]
  ring

/-- C172: without padding these conditions are also sufficient. -/
theorem nlp_accepted_iff {s limit n e i : ℕ} (hl : limit ≠ 0) (hn : 0 < n) :
    (∀ t ∈ nlpObjects n e i, t.Accepted limit (tight s)) ↔
      n * (n + 1) ^ 2 * s ≤ limit ∧ e * (n + 1) ^ 2 * s ≤ limit ∧ i * (n + 1) ^ 2 * s ≤ limit := by
  refine ⟨nlp_accepted_necessary (tight s) hl, ?_⟩
  rintro ⟨h1, h2, h3⟩
  have hn1 : n * (n * s) ≤ n * ((n + 1) ^ 2 * s) := by
    refine Nat.mul_le_mul_left _ (Nat.mul_le_mul_right _ ?_)
    nlinarith
  have hn2 : n * s ≤ n * (n * s) := by nlinarith [Nat.zero_le s, mul_pos hn hn, Nat.mul_le_mul_right s (show n ≤ n * n by nlinarith)]
  have hm : (n + 1) * s ≤ (n + 1) ^ 2 * s := Nat.mul_le_mul_right _ (by nlinarith)
  have a0 : n * s ≤ limit := by nlinarith
  have a1 : n * ((n + 1) * s) ≤ limit := by nlinarith
  have a2 : e * ((n + 1) * s) ≤ limit := le_trans (Nat.mul_le_mul_left _ hm) (by rw [← mul_assoc]; exact h2)
  have a3 : i * ((n + 1) * s) ≤ limit := le_trans (Nat.mul_le_mul_left _ hm) (by rw [← mul_assoc]; exact h3)
  have b1 : n * ((n + 1) ^ 2 * s) ≤ limit := by rw [← mul_assoc]; exact h1
  have b2 : e * ((n + 1) ^ 2 * s) ≤ limit := by rw [← mul_assoc]; exact h2
  have b3 : i * ((n + 1) ^ 2 * s) ≤ limit := by rw [← mul_assoc]; exact h3
  have c1 : n * n * s ≤ limit := by rw [mul_assoc]; exact le_trans hn1 b1
  have A1 : (ad1 n).Accepted limit (tight s) := ⟨.inr a0, trivial⟩
  have A2 : (ad2 n).Accepted limit (tight s) := ⟨.inr (by rw [tight_ad1]; exact a1), A1⟩
  have B1 : ∀ k, k * ((n + 1) * s) ≤ limit → (CTy.mat (ad1 n) k).Accepted limit (tight s) :=
    fun k hk => ⟨.inr (by rw [tight_ad1]; exact hk), A1⟩
  have B2 : ∀ k, k * ((n + 1) ^ 2 * s) ≤ limit → (CTy.mat (ad2 n) k).Accepted limit (tight s) :=
    fun k hk => ⟨.inr (by rw [tight_ad2]; exact hk), A2⟩
  intro t ht
  simp only [nlpObjects, List.mem_cons, List.not_mem_nil, or_false] at ht
  rcases ht with rfl | rfl | rfl | rfl | rfl | rfl | rfl | rfl | rfl | rfl
  exacts [B1 _ a1, B1 _ a1, B1 _ a2, B1 _ a3, A1, B2 _ b1, A2, ⟨.inr c1, trivial⟩, B2 _ b2, B2 _ b3]

/-- C172: with doubles and Eigen's default limit no dense user-defined problem with 25 or more variables compiles. -/
theorem nlp_dense_limit {n e i : ℕ} (L : Layout 8) (hn : 25 ≤ n) : ¬ ∀ t ∈ nlpObjects n e i, t.Accepted 131072 L := by
  intro h
  have h1 := (nlp_accepted_necessary L (by decide) h).1
  have h2 : 25 * (25 + 1) ^ 2 ≤ n * (n + 1) ^ 2 := Nat.mul_le_mul hn (Nat.pow_le_pow_left (by omega) 2)
  omega

/-- 24 variables with 24 equality and 24 inequality constraints compile. -/
example : ∀ t ∈ nlpObjects 24 24 24, t.Accepted 131072 (tight 8) := (nlp_accepted_iff (by decide) (by decide)).2 (by decide)

/-- C172: an optimal control problem of either format that compiles has at most `limit` bytes in each vector of second order numbers at one node and
at most `limit` bytes of node times, whatever the compiler's layout. -/
theorem ocp_accepted_necessary {s limit : ℕ} {d : Dims} (L : Layout s) (hl : limit ≠ 0) (h : ∀ t ∈ ocpObjects d, t.Accepted limit L) :
    (∀ k ∈ [d.NX, d.NU, d.NP, d.NG], k * (d.M + 1) ^ 2 * s ≤ limit) ∧ (d.N + 1) ^ 2 * s ≤ limit ∧ d.NN * s ≤ limit := by
  have key : ∀ k, (CTy.mat (ad2 d.M) k).Accepted limit L → k * (d.M + 1) ^ 2 * s ≤ limit := by
    intro k hk
    have := hk.1.resolve_left hl
    calc k * (d.M + 1) ^ 2 * s = k * ((d.M + 1) ^ 2 * s) := by ring
      _ ≤ k * L.bytes (ad2 d.M) := Nat.mul_le_mul_left _ (le_ad2 L d.M)
      _ ≤ limit := this
  refine ⟨?_, ?_, ?_⟩
  · intro k hk
    refine key k (h _ ?_)
    simp only [List.mem_cons, List.not_mem_nil, or_false] at hk
    rcases hk with rfl | rfl | rfl | rfl <;> simp [ocpObjects]
  · have := (h (.mat .scalar ((d.N + 1) * (d.N + 1))) (by simp [ocpObjects])).1.resolve_left hl
    rw [L.scalar] at this
    rwa [pow_two]
  · have := (h (.mat .scalar d.NN) (by simp [ocpObjects])).1.resolve_left hl
    rwa [L.scalar] at this

/-- C172: without padding these conditions are also sufficient. -/
theorem ocp_accepted_iff {s limit : ℕ} {d : Dims} (hl : limit ≠ 0) (hX : 0 < d.NX) :
    (∀ t ∈ ocpObjects d, t.Accepted limit (tight s)) ↔
      (∀ k ∈ [d.NX, d.NU, d.NP, d.NG], k * (d.M + 1) ^ 2 * s ≤ limit) ∧ (d.N + 1) ^ 2 * s ≤ limit ∧ d.NN * s ≤ limit := by
  refine ⟨ocp_accepted_necessary (tight s) hl, ?_⟩
  rintro ⟨hk, hD, hN⟩
  set m := d.M with hm
  have hx : (m + 1) ^ 2 * s ≤ limit := by
    refine le_trans ?_ (hk d.NX (by simp))
    rw [mul_assoc]
    exact Nat.le_mul_of_pos_left _ hX
  have a0 : m * s ≤ limit := le_trans (Nat.mul_le_mul_right _ (by nlinarith)) hx
  have a1 : m * ((m + 1) * s) ≤ limit := by
    rw [← mul_assoc]
    exact le_trans (Nat.mul_le_mul_right _ (by nlinarith)) hx
  have A1 : (ad1 m).Accepted limit (tight s) := ⟨.inr a0, trivial⟩
  have A2 : (ad2 m).Accepted limit (tight s) := ⟨.inr (by rw [tight_ad1]; exact a1), A1⟩
  have B2 : ∀ k ∈ [d.NX, d.NU, d.NP, d.NG], (CTy.mat (ad2 m) k).Accepted limit (tight s) :=
    fun k h => ⟨.inr (by rw [tight_ad2, ← mul_assoc]; exact hk k h), A2⟩
  have B1 : ∀ k ∈ [d.NX, d.NU, d.NP, d.NG], (CTy.mat (ad1 m) k).Accepted limit (tight s) := by
    refine fun k h => ⟨.inr ?_, A1⟩
    rw [tight_ad1]
    refine le_trans (Nat.mul_le_mul_left _ (Nat.mul_le_mul_right _ ?_)) (by rw [← mul_assoc]; exact hk k h)
    nlinarith
  have n1 : (d.N + 1) * s ≤ limit := le_trans (Nat.mul_le_mul_right _ (by nlinarith)) hD
  have D1 : (CTy.mat .scalar ((d.N + 1) * (d.N + 1))).Accepted limit (tight s) := ⟨.inr (by rw [← pow_two]; exact hD), trivial⟩
  have D2 : (CTy.mat .scalar (d.N + 1)).Accepted limit (tight s) := ⟨.inr n1, trivial⟩
  have D3 : (CTy.mat .scalar d.NN).Accepted limit (tight s) := ⟨.inr hN, trivial⟩
  intro t ht
  simp only [ocpObjects, List.mem_cons, List.not_mem_nil, or_false] at ht
  rcases ht with rfl | rfl | rfl | rfl | rfl | rfl | rfl | rfl | rfl | rfl | rfl | rfl | rfl | rfl | rfl
  exacts [B1 _ (by simp), B1 _ (by simp), B1 _ (by simp), B1 _ (by simp), B1 _ (by simp), A1, B2 _ (by simp), B2 _ (by simp), B2 _ (by simp),
    B2 _ (by simp), A2, D1, D2, D2, D3]

/-- Twelve states, four controls, one parameter and five path constraints on 101 nodes compile. -/
example : ∀ t ∈ ocpObjects ⟨12, 4, 1, 5, 20, 5⟩, t.Accepted 131072 (tight 8) := (ocp_accepted_iff (by decide) (by decide)).2 (by decide)

/-- With doubles and the default limit 24 states and two controls do not compile, whatever the number of nodes and the matrix format. -/
example (S N : ℕ) (L : Layout 8) : ¬ ∀ t ∈ ocpObjects ⟨24, 2, 0, 0, S, N⟩, t.Accepted 131072 L := fun h =>
  absurd ((ocp_accepted_necessary L (by decide) h).1 24 (by simp)) (by simp [Dims.M])

end PolyMPC.StorageAd
