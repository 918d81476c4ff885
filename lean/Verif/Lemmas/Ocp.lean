import Verif.Model.Ocp
import Verif.Spec.Ocp
import Mathlib.Tactic.Ring
import Mathlib.Tactic.Linarith
import Mathlib.Tactic.FieldSimp

/-! # Closed forms of the transcription -/

namespace PolyMPC.Ocp
open AD Spec

set_option linter.unusedSectionVars false
set_option linter.unusedVariables false

theorem loop_succ {σ : Type*} (n : ℕ) (f : ℕ → σ → σ) (s : σ) : loop (n + 1) f s = f n (loop n f s) := rfl

theorem loop_inv {σ : Type*} (P : ℕ → σ → Prop) {f : ℕ → σ → σ} {s : σ} {n : ℕ} (h0 : P 0 s)
    (hs : ∀ i < n, ∀ s, P i s → P (i + 1) (f i s)) : P n (loop n f s) := by
  induction n with
  | zero => exact h0
  | succ n ih => exact hs n (Nat.lt_succ_self n) _ (ih fun i hi s hp => hs i (Nat.lt_succ_of_lt hi) s hp)

theorem blk {n i : ℕ} (k t : ℕ) (hi : i < n) : (t * n ≤ k * n + i ∧ k * n + i < t * n + n) ↔ t = k := by
  constructor
  · rintro ⟨h1, h2⟩
    have a : t < k + 1 := by
      by_contra hc
      have : (k + 1) * n ≤ t * n := Nat.mul_le_mul_right n (by omega)
      rw [Nat.add_mul] at this; omega
    have b : k < t + 1 := by
      by_contra hc
      have : (t + 1) * n ≤ k * n := Nat.mul_le_mul_right n (by omega)
      rw [Nat.add_mul] at this; omega
    omega
  · rintro rfl; omega

theorem blk_le {n i k m : ℕ} (hi : i < n) (hk : k < m) : k * n + i < m * n := by
  have : (k + 1) * n ≤ m * n := Nat.mul_le_mul_right n hk
  rw [Nat.add_mul] at this; omega

theorem blk_inj {n i j k l : ℕ} (hi : i < n) (hj : j < n) (h : k * n + i = l * n + j) : k = l ∧ i = j := by
  have := (blk k l hi).1 (by omega)
  subst this; exact ⟨rfl, by omega⟩

theorem blk_split {n r m : ℕ} (hr : r < n * m) : ∃ k i, k < m ∧ i < n ∧ r = k * n + i := by
  have hn : 0 < n := by rcases Nat.eq_zero_or_pos n with h | h; · simp [h] at hr
                        · exact h
  exact ⟨r / n, r % n, Nat.div_lt_of_lt_mul hr, Nat.mod_lt _ hn, by rw [Nat.mul_comm]; exact (Nat.div_add_mod r n).symm⟩

variable {K : Type} [Field K]

/-! ### Time grid -/

/-- Closed form of the ascending grid before the reversal. -/
theorem grid_closed (d : Dims) (A : Approx K) (t0 len : K) (h0 : A.nodes 0 = 1) (hN : A.nodes d.N = -1) (h2 : (2 : K) ≠ 0)
    (old : ℕ → K) (m : ℕ) : ∀ s < m, ∀ j ≤ d.N,
    loop m (fun i tn => setSeg tn (i * d.N) (d.N + 1)
      fun j => len / 2 * A.nodes (d.N - j) + (t0 + len / 2 + (i : K) * len)) old (s * d.N + j)
      = len / 2 * A.nodes (d.N - j) + (t0 + len / 2 + (s : K) * len) := by
  induction m with
  | zero => intro s hs; omega
  | succ m ih =>
    intro s hs j hj
    rw [loop_succ]
    unfold setSeg
    rcases Nat.lt_or_ge s m with hsm | hsm
    · by_cases hin : m * d.N ≤ s * d.N + j ∧ s * d.N + j < m * d.N + (d.N + 1)
      · rw [if_pos hin]
        have h1 : (s + 1) * d.N ≤ m * d.N := Nat.mul_le_mul_right _ hsm
        rw [Nat.add_mul, Nat.one_mul] at h1
        have e : j = d.N := by omega
        have e2 : (s + 1) * d.N = m * d.N := by rw [Nat.add_mul]; omega
        subst e
        have e3 : s * d.N + d.N - m * d.N = 0 := by omega
        rw [e3]
        simp only [Nat.sub_zero, hN, Nat.sub_self, h0]
        rcases Nat.eq_zero_or_pos d.N with hz | hz
        · rw [hz] at hN; rw [hN] at h0
          exact absurd (by linear_combination -h0) h2
        · have e4 : s + 1 = m := Nat.eq_of_mul_eq_mul_right hz e2
          subst e4
          push_cast
          field_simp
          ring
      · rw [if_neg hin]; exact ih s hsm j hj
    · have e : s = m := by omega
      subst e
      rw [if_pos (by omega)]
      congr 3; omega

theorem time_closed (d : Dims) (A : Approx K) (o : Obj d K) (t0 tf : K) (h0 : A.nodes 0 = 1) (hN : A.nodes d.N = -1)
    (h2 : (2 : K) ≠ 0) {s j : ℕ} (hs : s < d.S) (hj : j ≤ d.N) :
    (setTimeLimits d A o t0 tf).time (s * d.N + j)
      = (tf - t0) / d.S / 2 * A.nodes j + (t0 + (tf - t0) / d.S / 2 + ((d.S - 1 - s : ℕ) : K) * ((tf - t0) / d.S)) := by
  have e : d.NN - 1 - (s * d.N + j) = (d.S - 1 - s) * d.N + (d.N - j) := by
    have h1 : d.S = (d.S - 1 - s) + s + 1 := by omega
    have h3 : d.S * d.N = (d.S - 1 - s) * d.N + s * d.N + d.N := by
      conv_lhs => rw [h1]
      ring
    unfold Dims.NN
    omega
  show loop d.S _ o.time (d.NN - 1 - (s * d.N + j)) = _
  rw [e]
  rw [grid_closed d A t0 ((tf - t0) / d.S) h0 hN h2 o.time d.S (d.S - 1 - s) (by omega) (d.N - j) (by omega)]
  congr 3; omega

/-! ### Constraints -/

/-- Closed form of `DX`. -/
theorem diffX_aux (d : Dims) (A : Approx K) (var : ℕ → K) (junk : ℕ → ℕ → K) (m : ℕ) :
    ∀ s < m, ∀ j ≤ d.N, (j < d.N ∨ s + 1 = m) → ∀ i < d.NX,
    loop m (fun s DX => setBlock DX (s * d.N) 0 (d.N + 1) d.NX
      fun r c => ∑ j ∈ Finset.range (d.N + 1), A.D r j * var ((s * d.N + j) * d.NX + c)) junk (s * d.N + j) i
      = ∑ l ∈ Finset.range (d.N + 1), A.D j l * var ((s * d.N + l) * d.NX + i) := by
  induction m with
  | zero => intro s hs; omega
  | succ m ih =>
    intro s hs j hj hjs i hi
    rw [loop_succ]
    unfold setBlock
    rcases Nat.lt_or_ge s m with hsm | hsm
    · have hjN : j < d.N := by omega
      have h1 : (s + 1) * d.N ≤ m * d.N := Nat.mul_le_mul_right _ hsm
      rw [Nat.add_mul, Nat.one_mul] at h1
      rw [if_neg (by omega)]
      exact ih s hsm j hj (Or.inl hjN) i hi
    · have e : s = m := by omega
      subst e
      rw [if_pos (by omega)]
      rw [show s * d.N + j - s * d.N = j by omega, Nat.sub_zero]

theorem diffX_closed (d : Dims) (A : Approx K) (var : ℕ → K) (junk : ℕ → ℕ → K) {s j i : ℕ} (hs : s < d.S) (hj : j ≤ d.N)
    (hjs : j < d.N ∨ s + 1 = d.S) (hi : i < d.NX) : diffX d A var junk (s * d.N + j) i
      = ∑ l ∈ Finset.range (d.N + 1), A.D j l * var ((s * d.N + l) * d.NX + i) :=
  diffX_aux d A var junk d.S s hs j hj hjs i hi

/-- Every node has a segment and a position in it, junctions belonging to the later segment. -/
theorem node_split (d : Dims) (hS : 1 ≤ d.S) (hN : 1 ≤ d.N) {k : ℕ} (hk : k < d.NN) :
    ∃ s j, s < d.S ∧ j ≤ d.N ∧ (j < d.N ∨ s + 1 = d.S) ∧ k = s * d.N + j := by
  unfold Dims.NN at hk
  rcases Nat.lt_or_ge k (d.S * d.N) with h | h
  · refine ⟨k / d.N, k % d.N, Nat.div_lt_of_lt_mul (by rw [Nat.mul_comm]; exact h), (Nat.mod_lt _ hN).le, Or.inl (Nat.mod_lt _ hN), ?_⟩
    rw [Nat.mul_comm]; exact (Nat.div_add_mod k d.N).symm
  · refine ⟨d.S - 1, d.N, by omega, le_rfl, Or.inr (by omega), ?_⟩
    have : d.S * d.N = (d.S - 1) * d.N + d.N := by
      conv_lhs => rw [show d.S = d.S - 1 + 1 by omega, Nat.add_mul, Nat.one_mul]
    omega

theorem node_lt (d : Dims) {s j : ℕ} (hs : s < d.S) (hj : j ≤ d.N) : s * d.N + j < d.NN := by
  have : (s + 1) * d.N ≤ d.S * d.N := Nat.mul_le_mul_right _ hs
  rw [Nat.add_mul, Nat.one_mul] at this
  unfold Dims.NN; omega

/-- The dynamics callback writes all components. -/
def WritesDyn {d : Dims} (cb : Cbs d K) : Prop := ∀ z t old old', ∀ i < d.NX, cb.dyn z t old i = cb.dyn z t old' i
/-- The constraint callback writes all components. -/
def WritesIneq {d : Dims} (cb : Cbs d K) : Prop := ∀ z t old old', ∀ i < d.NG, cb.ineq z t old i = cb.ineq z t old' i

theorem equalities_aux (d : Dims) (A : Approx K) (cb : Cbs d K) (o : Obj d K) (var c0 : ℕ → K) (DX : ℕ → ℕ → K)
    (hw : WritesDyn cb) (n : ℕ) : ∀ k < n, ∀ i < d.NX,
    (loop n (fun t (s : (ℕ → K) × (ℕ → K)) =>
      let f := cb.dyn (node d var t) (o.time t) s.1
      let c := setSeg s.2 (t * d.NX) d.NX fun i => DX t i
      (f, addSeg c (t * d.NX) d.NX fun i => -(tScale d o * f i))) (fun _ => 0, c0)).2 (k * d.NX + i)
      = DX k i - tScale d o * cb.dyn (node d var k) (o.time k) (fun _ => 0) i := by
  induction n with
  | zero => intro k hk; omega
  | succ n ih =>
    intro k hk i hi
    simp only [loop, addSeg, setSeg]
    have hb := blk k n hi
    by_cases e : n = k
    · subst e
      simp only [Nat.le_add_right, Nat.add_lt_add_iff_left, hi, and_self, if_true, Nat.add_sub_cancel_left]
      rw [hw _ _ _ (fun _ => 0) i hi]; ring
    · rw [if_neg (fun h => e (hb.1 h)), if_neg (fun h => e (hb.1 h))]
      exact ih k (by omega) i hi

theorem equalities_closed (d : Dims) (A : Approx K) (cb : Cbs d K) (o : Obj d K) (junk : ℕ → ℕ → K) (var c0 : ℕ → K)
    (hw : WritesDyn cb) {k i : ℕ} (hk : k < d.NN) (hi : i < d.NX) :
    equalities d A cb o junk var c0 (k * d.NX + i)
      = diffX d A var junk k i - tScale d o * cb.dyn (node d var k) (o.time k) (fun _ => 0) i :=
  equalities_aux d A cb o var c0 _ hw d.NN k hk i hi

theorem inequalities_aux (d : Dims) (cb : Cbs d K) (o : Obj d K) (var c0 : ℕ → K) (hw : WritesIneq cb) (n : ℕ) :
    ∀ k < n, ∀ i < d.NG,
    (loop n (fun k (s : (ℕ → K) × (ℕ → K)) =>
      let g := cb.ineq (node d var k) (o.time k) s.1
      (g, setSeg s.2 (k * d.NG) d.NG g)) (fun _ => 0, c0)).2 (k * d.NG + i)
      = cb.ineq (node d var k) (o.time k) (fun _ => 0) i := by
  induction n with
  | zero => intro k hk; omega
  | succ n ih =>
    intro k hk i hi
    simp only [loop, setSeg]
    have hb := blk k n hi
    by_cases e : n = k
    · subst e
      simp only [Nat.le_add_right, Nat.add_lt_add_iff_left, hi, and_self, if_true, Nat.add_sub_cancel_left]
      rw [hw _ _ _ (fun _ => 0) i hi]
    · rw [if_neg (fun h => e (hb.1 h))]
      exact ih k (by omega) i hi

theorem inequalities_closed (d : Dims) (cb : Cbs d K) (o : Obj d K) (var c0 : ℕ → K) (hw : WritesIneq cb)
    {k i : ℕ} (hk : k < d.NN) (hi : i < d.NG) :
    inequalities d cb o var c0 (k * d.NG + i) = cb.ineq (node d var k) (o.time k) (fun _ => 0) i :=
  inequalities_aux d cb o var c0 hw d.NN k hk i hi

theorem constraints_eq_part (d : Dims) (A : Approx K) (cb : Cbs d K) (o : Obj d K) (junk : ℕ → ℕ → K) (var c0 : ℕ → K)
    {r : ℕ} (hr : r < d.NEQ) : constraints d A cb o junk var c0 r = equalities d A cb o junk var c0 r := by
  simp only [constraints, setSeg]
  rw [if_neg (by omega), if_pos (by omega), Nat.sub_zero]

theorem constraints_ineq_part (d : Dims) (A : Approx K) (cb : Cbs d K) (o : Obj d K) (junk : ℕ → ℕ → K) (var c0 : ℕ → K)
    {r : ℕ} (hr : r < d.NINEQ) : ∃ c0', constraints d A cb o junk var c0 (d.NEQ + r) = inequalities d cb o var c0' r := by
  simp only [constraints, setSeg]
  rw [if_pos (by omega), Nat.add_sub_cancel_left]
  exact ⟨_, rfl⟩

/-! ### Scatter: position of node variables in the big vector -/

/-- Position of component `i` of `(x_k, u_k, p)`. -/
def nodeIdx (d : Dims) (k i : ℕ) : ℕ :=
  if i < d.NX then k * d.NX + i else
  if i < d.NX + d.NU then k * d.NU + d.VARX + (i - d.NX) else
  d.VARX + d.VARU + (i - d.NX - d.NU)

theorem node_eq (d : Dims) (var : ℕ → K) (k : ℕ) (i : Fin d.M) : node d var k i = var (nodeIdx d k i) := by
  unfold node nodeIdx
  split_ifs <;> rfl

theorem xIdx_lt (d : Dims) {k i : ℕ} (hk : k < d.NN) (hi : i < d.NX) : k * d.NX + i < d.VARX := by
  unfold Dims.VARX; rw [Nat.mul_comm d.NX]; exact blk_le hi hk

theorem uIdx_lt (d : Dims) {k i : ℕ} (hk : k < d.NN) (hi : i < d.NU) : k * d.NU + i < d.VARU := by
  unfold Dims.VARU; rw [Nat.mul_comm d.NU]; exact blk_le hi hk

theorem nodeIdx_lt (d : Dims) {k i : ℕ} (hk : k < d.NN) (hi : i < d.M) : nodeIdx d k i < d.VAR := by
  unfold nodeIdx Dims.VAR
  unfold Dims.M at hi
  split_ifs with h1 h2
  · have := xIdx_lt d hk h1; omega
  · have := uIdx_lt d hk (show i - d.NX < d.NU by omega); omega
  · omega

theorem nodeIdx_inj (d : Dims) {k i j : ℕ} (hk : k < d.NN) (hi : i < d.M) (hj : j < d.M)
    (h : nodeIdx d k i = nodeIdx d k j) : i = j := by
  have a : ∀ i < d.NX, k * d.NX + i < d.VARX := fun i hi => xIdx_lt d hk hi
  have b : ∀ i < d.NU, k * d.NU + i < d.VARU := fun i hi => uIdx_lt d hk hi
  unfold Dims.M at hi hj
  have ai := a i; have aj := a j; have bi := b (i - d.NX); have bj := b (j - d.NX)
  unfold nodeIdx at h
  split_ifs at h <;> omega

/-- The sum of the contributions of a node vector to entry `c` of the big vector. -/
def scatter (d : Dims) (k : ℕ) (g : ℕ → K) (c : ℕ) : K := ∑ i ∈ Finset.range d.M, if nodeIdx d k i = c then g i else 0

theorem scatter_at (d : Dims) {k : ℕ} (g : ℕ → K) (hk : k < d.NN) {i : ℕ} (hi : i < d.M) : scatter d k g (nodeIdx d k i) = g i := by
  unfold scatter
  rw [Finset.sum_eq_single i]
  · rw [if_pos rfl]
  · intro j hj hne
    rw [if_neg fun h => hne (nodeIdx_inj d hk (Finset.mem_range.1 hj) hi h)]
  · intro h; exact absurd (Finset.mem_range.2 hi) h

theorem scatter_off (d : Dims) {k : ℕ} (g : ℕ → K) {c : ℕ} (h : ∀ i < d.M, nodeIdx d k i ≠ c) : scatter d k g c = 0 :=
  Finset.sum_eq_zero fun i hi => if_neg (h i (Finset.mem_range.1 hi))

/-- A position either is the position of a component of the node or is outside all three blocks. -/
theorem idx_cases (d : Dims) {k c : ℕ} (hk : k < d.NN) (hc : c < d.VAR) :
    (∃ i < d.NX, c = k * d.NX + i ∧ nodeIdx d k i = c) ∨
    (∃ i < d.NU, c = k * d.NU + d.VARX + i ∧ nodeIdx d k (d.NX + i) = c) ∨
    (∃ i < d.NP, c = d.VARX + d.VARU + i ∧ nodeIdx d k (d.NX + d.NU + i) = c) ∨
    ((¬ (k * d.NX ≤ c ∧ c < k * d.NX + d.NX)) ∧ (¬ (k * d.NU + d.VARX ≤ c ∧ c < k * d.NU + d.VARX + d.NU)) ∧
      (¬ (d.VARX + d.VARU ≤ c ∧ c < d.VARX + d.VARU + d.NP)) ∧ ∀ i < d.M, nodeIdx d k i ≠ c) := by
  by_cases h1 : k * d.NX ≤ c ∧ c < k * d.NX + d.NX
  · left; refine ⟨c - k * d.NX, by omega, by omega, ?_⟩
    unfold nodeIdx; rw [if_pos (by omega)]; omega
  by_cases h2 : k * d.NU + d.VARX ≤ c ∧ c < k * d.NU + d.VARX + d.NU
  · right; left; refine ⟨c - (k * d.NU + d.VARX), by omega, by omega, ?_⟩
    unfold nodeIdx; rw [if_neg (by omega), if_pos (by omega)]; omega
  by_cases h3 : d.VARX + d.VARU ≤ c ∧ c < d.VARX + d.VARU + d.NP
  · right; right; left; refine ⟨c - (d.VARX + d.VARU), by omega, by omega, ?_⟩
    unfold nodeIdx; rw [if_neg (by omega), if_neg (by omega)]; omega
  · right; right; right
    refine ⟨h1, h2, h3, fun i hi he => ?_⟩
    unfold Dims.M at hi
    unfold nodeIdx at he
    split_ifs at he <;> omega

/-- Disjointness of the three blocks of a node. -/
theorem idx_facts (d : Dims) {k : ℕ} (hk : k < d.NN) : k * d.NX + d.NX ≤ d.VARX ∧ k * d.NU + d.NU ≤ d.VARU := by
  have e1 : (k + 1) * d.NX ≤ d.NN * d.NX := Nat.mul_le_mul_right _ hk
  have e2 : (k + 1) * d.NU ≤ d.NN * d.NU := Nat.mul_le_mul_right _ hk
  rw [Nat.add_mul] at e1 e2
  unfold Dims.VARX Dims.VARU
  rw [Nat.mul_comm d.NX, Nat.mul_comm d.NU]; omega

theorem addNode_apply (d : Dims) (v : ℕ → K) {k : ℕ} (hk : k < d.NN) (c : K) (g : ℕ → K) {p : ℕ} (hp : p < d.VAR) :
    addNode d v k c g p = v p + c * scatter d k g p := by
  obtain ⟨f1, f2⟩ := idx_facts d hk
  have eV : d.VAR - d.NP = d.VARX + d.VARU := by unfold Dims.VAR; omega
  unfold addNode addSeg
  simp only [eV]
  rcases idx_cases d hk hp with ⟨i, hi, e, hn⟩ | ⟨i, hi, e, hn⟩ | ⟨i, hi, e, hn⟩ | ⟨n1, n2, n3, hn⟩
  · rw [if_neg (by omega), if_neg (by omega), if_pos (by omega), ← hn, scatter_at d g hk (by unfold Dims.M; omega), hn]
    rw [show p - k * d.NX = i by omega]
  · rw [if_neg (by omega), if_pos (by omega), if_neg (by omega), ← hn, scatter_at d g hk (by unfold Dims.M; omega), hn]
    rw [show p - (k * d.NU + d.VARX) = i by omega]
  · rw [if_pos (by omega), if_neg (by omega), if_neg (by omega), ← hn, scatter_at d g hk (by unfold Dims.M; omega), hn]
    rw [show p - (d.VARX + d.VARU) = i by omega]
  · rw [if_neg n3, if_neg n2, if_neg n1, scatter_off d g hn, mul_zero, add_zero]

/-- Position pairs. -/
def scatter2 (d : Dims) (k : ℕ) (h : ℕ → ℕ → K) (r c : ℕ) : K := scatter d k (fun i => scatter d k (fun j => h i j) c) r

set_option maxHeartbeats 2000000 in
theorem addNode2_apply (d : Dims) (H : ℕ → ℕ → K) {k : ℕ} (hk : k < d.NN) (a : K) (h : ℕ → ℕ → K) {r c : ℕ} (hr : r < d.VAR)
    (hc : c < d.VAR) : addNode2 d H k a h r c = H r c + a * scatter2 d k h r c := by
  obtain ⟨f1, f2⟩ := idx_facts d hk
  have eV : d.VAR - d.NP = d.VARX + d.VARU := by unfold Dims.VAR; omega
  unfold addNode2 addBlock scatter2
  simp only [eV]
  rcases idx_cases d hk hr with ⟨i, hi, e, hn⟩ | ⟨i, hi, e, hn⟩ | ⟨i, hi, e, hn⟩ | ⟨n1, n2, n3, hn⟩ <;>
  rcases idx_cases d hk hc with ⟨j, hj, e', hm⟩ | ⟨j, hj, e', hm⟩ | ⟨j, hj, e', hm⟩ | ⟨m1, m2, m3, hm⟩
  all_goals
    first
    | (rw [scatter_off d _ hn, mul_zero, add_zero]
       simp only [n1, n2, n3, false_and, if_false])
    | (conv_rhs => rw [← hn]
       rw [scatter_at d _ hk (by unfold Dims.M; omega), scatter_off d _ hm, hn, mul_zero, add_zero]
       simp only [m1, m2, m3, and_false, if_false])
    | (conv_rhs => rw [← hn, ← hm]
       rw [scatter_at d _ hk (by unfold Dims.M; omega), scatter_at d _ hk (by unfold Dims.M; omega), hn, hm]
       subst e e'
       simp only [show ∀ a b c : ℕ, (a + b + c - (a + b)) = c from fun a b c => by omega,
         show ∀ a b : ℕ, a + b - a = b from fun a b => by omega]
       repeat first | rw [if_neg (by omega)] | rw [if_pos (by omega)])

/-! ### Jacobians -/

theorem addRows_apply (d : Dims) (J : ℕ → ℕ → K) {n k a : ℕ} (hk : k < d.NN) (ha : a < n) (B : ℕ → ℕ → K) {c : ℕ} (hc : c < d.VAR) :
    addBlock (addBlock (addBlock J (k * n) (k * d.NX) n d.NX fun r m => B r m)
      (k * n) (k * d.NU + d.VARX) n d.NU fun r m => B r (d.NX + m))
      (k * n) (d.VARX + d.VARU) n d.NP (fun r m => B r (d.NX + d.NU + m)) (k * n + a) c
      = J (k * n + a) c + scatter d k (B a) c := by
  obtain ⟨f1, f2⟩ := idx_facts d hk
  unfold addBlock
  have hr : k * n ≤ k * n + a ∧ k * n + a < k * n + n := by omega
  simp only [hr, and_self, true_and, Nat.add_sub_cancel_left]
  rcases idx_cases d hk hc with ⟨i, hi, e, hn⟩ | ⟨i, hi, e, hn⟩ | ⟨i, hi, e, hn⟩ | ⟨n1, n2, n3, hn⟩
  · rw [if_neg (by omega), if_neg (by omega), if_pos (by omega), ← hn, scatter_at d _ hk (by unfold Dims.M; omega), hn]
    rw [show c - k * d.NX = i by omega]
  · rw [if_neg (by omega), if_pos (by omega), if_neg (by omega), ← hn, scatter_at d _ hk (by unfold Dims.M; omega), hn]
    rw [show c - (k * d.NU + d.VARX) = i by omega]
  · rw [if_pos (by omega), if_neg (by omega), if_neg (by omega), ← hn, scatter_at d _ hk (by unfold Dims.M; omega), hn]
    rw [show c - (d.VARX + d.VARU) = i by omega]
  · rw [if_neg n3, if_neg n2, if_neg n1, scatter_off d _ hn, add_zero]

theorem addRows_off (d : Dims) (J : ℕ → ℕ → K) {n k t a : ℕ} (hne : t ≠ k) (ha : a < n) (B1 B2 B3 : ℕ → ℕ → K) (p1 p2 p3 q1 q2 q3 : ℕ) (c : ℕ) :
    addBlock (addBlock (addBlock J (t * n) p1 n q1 B1) (t * n) p2 n q2 B2) (t * n) p3 n q3 B3 (k * n + a) c = J (k * n + a) c := by
  have hr : ¬ (t * n ≤ k * n + a ∧ k * n + a < t * n + n) := fun h => hne ((blk k t ha).1 h)
  unfold addBlock
  simp only [hr, false_and, if_false]

theorem setRows_apply (d : Dims) (J : ℕ → ℕ → K) {n k a : ℕ} (hk : k < d.NN) (ha : a < n) (B : ℕ → ℕ → K) {c : ℕ} (hc : c < d.VAR)
    (hz : J (k * n + a) c = 0) :
    setBlock (setBlock (setBlock J (k * n) (k * d.NX) n d.NX fun r m => B r m)
      (k * n) (k * d.NU + d.VARX) n d.NU fun r m => B r (d.NX + m))
      (k * n) (d.VARX + d.VARU) n d.NP (fun r m => B r (d.NX + d.NU + m)) (k * n + a) c
      = scatter d k (B a) c := by
  obtain ⟨f1, f2⟩ := idx_facts d hk
  unfold setBlock
  have hr : k * n ≤ k * n + a ∧ k * n + a < k * n + n := by omega
  simp only [hr, and_self, true_and, Nat.add_sub_cancel_left]
  rcases idx_cases d hk hc with ⟨i, hi, e, hn⟩ | ⟨i, hi, e, hn⟩ | ⟨i, hi, e, hn⟩ | ⟨n1, n2, n3, hn⟩
  · rw [if_neg (by omega), if_neg (by omega), if_pos (by omega), ← hn, scatter_at d _ hk (by unfold Dims.M; omega), hn]
    rw [show c - k * d.NX = i by omega]
  · rw [if_neg (by omega), if_pos (by omega), ← hn, scatter_at d _ hk (by unfold Dims.M; omega), hn]
    rw [show c - (k * d.NU + d.VARX) = i by omega]
  · rw [if_pos (by omega), ← hn, scatter_at d _ hk (by unfold Dims.M; omega), hn]
    rw [show c - (d.VARX + d.VARU) = i by omega]
  · rw [if_neg n3, if_neg n2, if_neg n1, scatter_off d _ hn, hz]

theorem setRows_off (d : Dims) (J : ℕ → ℕ → K) {n k t a : ℕ} (hne : t ≠ k) (ha : a < n) (B1 B2 B3 : ℕ → ℕ → K) (p1 p2 p3 q1 q2 q3 : ℕ) (c : ℕ) :
    setBlock (setBlock (setBlock J (t * n) p1 n q1 B1) (t * n) p2 n q2 B2) (t * n) p3 n q3 B3 (k * n + a) c = J (k * n + a) c := by
  have hr : ¬ (t * n ≤ k * n + a ∧ k * n + a < t * n + n) := fun h => hne ((blk k t ha).1 h)
  unfold setBlock
  simp only [hr, false_and, if_false]

/-- A loop all of whose steps but one leave an observation alone. -/
theorem loop_one {σ α : Type*} (get : σ → α) {f : ℕ → σ → σ} {n k : ℕ} (hk : k < n) (v : α) (s : σ)
    (off : ∀ i < n, i ≠ k → ∀ s, get (f i s) = get s) (on : ∀ t, get t = get s → get (f k t) = v) : get (loop n f s) = v := by
  have h := loop_inv (P := fun m t => get t = if m ≤ k then get s else v) (f := f) (s := s) (n := n) (by simp) ?_
  · rwa [if_neg (by omega)] at h
  · intro i hi t ht
    by_cases e : i = k
    · subst e
      rw [if_pos le_rfl] at ht
      rw [if_neg (by omega), on t ht]
    · rw [off i hi e, ht]
      by_cases h : i ≤ k
      · rw [if_pos h, if_pos (by omega)]
      · rw [if_neg h, if_neg (by omega)]

theorem loop_none {σ α : Type*} (get : σ → α) {f : ℕ → σ → σ} {n : ℕ} (s : σ)
    (off : ∀ i < n, ∀ s, get (f i s) = get s) : get (loop n f s) = get s :=
  loop_inv (P := fun _ t => get t = get s) rfl fun i hi t ht => (off i hi t).trans ht

/-- One row of the differentiation part. -/
def diffRow (d : Dims) (A : Approx K) (s j a c : ℕ) : K :=
  ∑ l ∈ Finset.range (d.N + 1), if (s * d.N + l) * d.NX + a = c then A.D j l else 0

theorem innerRow (d : Dims) (A : Approx K) (s i : ℕ) {a : ℕ} (ha : a < d.NX) (c : ℕ) (J : ℕ → ℕ → K)
    (hz : J ((s * d.N + i) * d.NX + a) c = 0) (m : ℕ) :
    loop m (fun j J => setBlock J (s * d.N * d.NX + i * d.NX) (s * d.N * d.NX + j * d.NX) d.NX d.NX
      fun r c => if r = c then A.D i j else 0) J ((s * d.N + i) * d.NX + a) c
      = ∑ l ∈ Finset.range m, if (s * d.N + l) * d.NX + a = c then A.D i l else 0 := by
  induction m with
  | zero => simpa [loop] using hz
  | succ m ih =>
    rw [loop_succ, Finset.sum_range_succ]
    simp only [← Nat.add_mul]
    simp only [← Nat.add_mul] at ih
    unfold setBlock
    have hr : (s * d.N + i) * d.NX ≤ (s * d.N + i) * d.NX + a ∧ (s * d.N + i) * d.NX + a < (s * d.N + i) * d.NX + d.NX := by omega
    simp only [hr, and_self, true_and, Nat.add_sub_cancel_left]
    by_cases hc : (s * d.N + m) * d.NX ≤ c ∧ c < (s * d.N + m) * d.NX + d.NX
    · rw [if_pos hc, Finset.sum_eq_zero, zero_add]
      · by_cases e : a = c - (s * d.N + m) * d.NX
        · rw [if_pos e, if_pos (by omega)]
        · rw [if_neg e, if_neg (by omega)]
      · intro l hl
        rw [if_neg]
        rintro rfl
        have := (blk (s * d.N + l) (s * d.N + m) ha).1 hc
        have := Finset.mem_range.1 hl
        omega
    · rw [if_neg hc, if_neg (by omega), add_zero]
      exact ih

theorem innerRow_off (d : Dims) (A : Approx K) (s i : ℕ) {a k : ℕ} (ha : a < d.NX) (hk : s * d.N + i ≠ k) (c : ℕ) (J : ℕ → ℕ → K) (m : ℕ) :
    loop m (fun j J => setBlock J (s * d.N * d.NX + i * d.NX) (s * d.N * d.NX + j * d.NX) d.NX d.NX
      fun r c => if r = c then A.D i j else 0) J (k * d.NX + a) c = J (k * d.NX + a) c := by
  refine loop_none (fun J : ℕ → ℕ → K => J (k * d.NX + a) c) J fun j _ J => ?_
  simp only [← Nat.add_mul]
  unfold setBlock
  rw [if_neg fun h => hk ((blk k (s * d.N + i) ha).1 h.1)]

/-- The loops of the differentiation part. -/
def denseLoops (d : Dims) (A : Approx K) : ℕ → ℕ → K :=
  loop d.S (fun s J => loop d.N (fun i J => loop (d.N + 1) (fun j J =>
      let shift := s * d.N * d.NX
      setBlock J (shift + i * d.NX) (shift + j * d.NX) d.NX d.NX fun r c => if r = c then A.D i j else 0) J) J)
    fun _ _ => 0

theorem denseLoops_row (d : Dims) (A : Approx K) {s j a : ℕ} (hs : s < d.S) (hj : j < d.N) (ha : a < d.NX) (c : ℕ) :
    denseLoops d A ((s * d.N + j) * d.NX + a) c = diffRow d A s j a c := by
  refine loop_one (fun J : ℕ → ℕ → K => J ((s * d.N + j) * d.NX + a) c) hs _ _ ?_ ?_
  · intro s' hs' hne J
    refine loop_none (fun J : ℕ → ℕ → K => J ((s * d.N + j) * d.NX + a) c) J fun i hi J => ?_
    exact innerRow_off d A s' i ha (fun h => hne (blk_inj hi hj h).1) c J _
  · intro J hJ
    refine loop_one (fun J : ℕ → ℕ → K => J ((s * d.N + j) * d.NX + a) c) hj _ _ ?_ ?_
    · intro i hi hne J
      exact innerRow_off d A s i ha (by omega) c J _
    · intro J' hJ'
      exact innerRow d A s j ha c J' (hJ'.trans hJ) _

theorem denseLoops_last (d : Dims) (A : Approx K) {a : ℕ} (ha : a < d.NX) (c : ℕ) :
    denseLoops d A (d.S * d.N * d.NX + a) c = 0 := by
  refine loop_none (fun J : ℕ → ℕ → K => J (d.S * d.N * d.NX + a) c) _ fun s hs J => ?_
  refine loop_none (fun J : ℕ → ℕ → K => J (d.S * d.N * d.NX + a) c) J fun i hi J => ?_
  refine innerRow_off d A s i ha ?_ c J _
  have := blk_le hi hs
  omega

/-- The differentiation matrix is skew under reversal of rows and columns, first and last row. -/
def SkewEnds (d : Dims) (A : Approx K) : Prop := ∀ l ≤ d.N, A.D d.N (d.N - l) = -A.D 0 l

theorem denseDiff_closed (d : Dims) (A : Approx K) (hS : 1 ≤ d.S) (hN : 1 ≤ d.N) (hsk : SkewEnds d A) {s j a : ℕ} (hs : s < d.S) (hj : j ≤ d.N)
    (hjs : j < d.N ∨ s + 1 = d.S) (ha : a < d.NX) (c : ℕ) :
    denseDiffPart d A ((s * d.N + j) * d.NX + a) c = diffRow d A s j a c := by
  have eD : denseDiffPart d A = setBlock (denseLoops d A) (d.VARX - d.NX) (d.VARX - d.NX * (d.N + 1)) d.NX (d.NX * (d.N + 1))
      (fun r c => -denseLoops d A (d.NX - 1 - r) (d.NX * (d.N + 1) - 1 - c)) := rfl
  rw [eD]
  have eV : d.VARX = d.S * d.N * d.NX + d.NX := by unfold Dims.VARX Dims.NN; ring
  have eS : d.S * d.N = (d.S - 1) * d.N + d.N := by
    conv_lhs => rw [show d.S = d.S - 1 + 1 by omega, Nat.add_mul, Nat.one_mul]
  have eV2 : d.VARX = (d.S - 1) * d.N * d.NX + d.NX * (d.N + 1) := by rw [eV, eS]; ring
  unfold setBlock
  by_cases hjN : j < d.N
  · have : (s * d.N + j) * d.NX + a < d.S * d.N * d.NX := blk_le ha (blk_le hjN hs)
    rw [if_neg (by omega)]
    exact denseLoops_row d A hs hjN ha c
  · have ej : j = d.N := by omega
    have es : s = d.S - 1 := by omega
    subst ej es
    rw [← eS]
    have e1 : d.VARX - d.NX = d.S * d.N * d.NX := by omega
    have e2 : d.VARX - d.NX * (d.N + 1) = (d.S - 1) * d.N * d.NX := by omega
    rw [e1, e2]
    have hr : d.S * d.N * d.NX ≤ d.S * d.N * d.NX + a ∧ d.S * d.N * d.NX + a < d.S * d.N * d.NX + d.NX := by omega
    simp only [hr, and_self, true_and, Nat.add_sub_cancel_left]
    unfold diffRow
    by_cases hc : (d.S - 1) * d.N * d.NX ≤ c ∧ c < (d.S - 1) * d.N * d.NX + d.NX * (d.N + 1)
    · rw [if_pos hc]
      have h0 := denseLoops_row d A (s := 0) (j := 0) (a := d.NX - 1 - a) (by omega) (by omega) (by omega)
        (d.NX * (d.N + 1) - 1 - (c - (d.S - 1) * d.N * d.NX))
      simp only [Nat.zero_mul, Nat.add_zero, Nat.zero_add] at h0
      show -denseLoops d A (d.NX - 1 - a) (d.NX * (d.N + 1) - 1 - (c - (d.S - 1) * d.N * d.NX)) = _
      rw [h0]
      unfold diffRow
      rw [← Finset.sum_neg_distrib, ← Finset.sum_range_reflect]
      refine Finset.sum_congr rfl fun l hl => ?_
      have hl' := Finset.mem_range.1 hl
      have hd := hsk (d.N - l) (by omega)
      rw [show d.N - (d.N - l) = l by omega] at hd
      rw [show d.N + 1 - 1 - l = d.N - l by omega]
      have e3 : (d.N + 1) * d.NX = (d.N - l) * d.NX + l * d.NX + d.NX := by
        conv_lhs => rw [show d.N + 1 = (d.N - l) + l + 1 by omega]
        ring
      have e4 : ((d.S - 1) * d.N + l) * d.NX = (d.S - 1) * d.N * d.NX + l * d.NX := by ring
      have e5 : (0 * d.N + (d.N - l)) * d.NX = (d.N - l) * d.NX := by ring
      rw [Nat.mul_comm d.NX (d.N + 1)] at hc ⊢
      rw [e4, e5]
      by_cases hq : (d.S - 1) * d.N * d.NX + l * d.NX + a = c
      · rw [if_pos hq, if_pos (by omega), hd]
      · rw [if_neg hq, if_neg (by omega), neg_zero]
    · rw [if_neg hc, denseLoops_last d A ha c]
      symm
      refine Finset.sum_eq_zero fun l hl => if_neg ?_
      have hl' := Finset.mem_range.1 hl
      have e4 : ((d.S - 1) * d.N + l) * d.NX = (d.S - 1) * d.N * d.NX + l * d.NX := by ring
      have e6 : (l + 1) * d.NX ≤ (d.N + 1) * d.NX := Nat.mul_le_mul_right _ hl'
      rw [Nat.add_mul, Nat.one_mul] at e6
      rw [Nat.mul_comm d.NX (d.N + 1)] at hc
      rw [e4]
      omega

theorem equalities_at (d : Dims) (A : Approx K) (cb : Cbs d K) (o : Obj d K) (junk : ℕ → ℕ → K) (var c0 : ℕ → K) (F : ℕ → ℕ → K)
    (hw : ∀ k < d.NN, ∀ old, ∀ i < d.NX, cb.dyn (node d var k) (o.time k) old i = F k i) {k i : ℕ} (hk : k < d.NN) (hi : i < d.NX) :
    equalities d A cb o junk var c0 (k * d.NX + i) = diffX d A var junk k i - tScale d o * F k i := by
  unfold equalities
  dsimp only
  refine loop_one (fun s : (ℕ → K) × (ℕ → K) => s.2 (k * d.NX + i)) hk _ _ ?_ ?_
  · intro t ht hne s
    have hr : ¬ (t * d.NX ≤ k * d.NX + i ∧ k * d.NX + i < t * d.NX + d.NX) := fun h => hne ((blk k t hi).1 h)
    simp only [setSeg, addSeg, hr, if_false]
  · intro s hs
    have hr : k * d.NX ≤ k * d.NX + i ∧ k * d.NX + i < k * d.NX + d.NX := by omega
    simp only [setSeg, addSeg, hr, and_self, if_true, Nat.add_sub_cancel_left]
    rw [hw k hk _ i hi]; ring

theorem inequalities_at (d : Dims) (cb : Cbs d K) (o : Obj d K) (var c0 : ℕ → K) (F : ℕ → ℕ → K)
    (hw : ∀ k < d.NN, ∀ old, ∀ i < d.NG, cb.ineq (node d var k) (o.time k) old i = F k i) {k i : ℕ} (hk : k < d.NN) (hi : i < d.NG) :
    inequalities d cb o var c0 (k * d.NG + i) = F k i := by
  unfold inequalities
  refine loop_one (fun s : (ℕ → K) × (ℕ → K) => s.2 (k * d.NG + i)) hk _ _ ?_ ?_
  · intro t ht hne s
    have hr : ¬ (t * d.NG ≤ k * d.NG + i ∧ k * d.NG + i < t * d.NG + d.NG) := fun h => hne ((blk k t hi).1 h)
    simp only [setSeg, hr, if_false]
  · intro s hs
    have hr : k * d.NG ≤ k * d.NG + i ∧ k * d.NG + i < k * d.NG + d.NG := by omega
    simp only [setSeg, hr, and_self, if_true, Nat.add_sub_cancel_left]
    rw [hw k hk _ i hi]

/-- What the linearisations return, for callbacks whose AD version overwrites its output. -/
theorem equalitiesLin_closed (d : Dims) (A : Approx K) (cb : Cbs d K) (o : Obj d K) (junk : ℕ → ℕ → K) (var c0 : ℕ → K)
    (F : ℕ → ℕ → Dual d.M K) (hw : ∀ k < d.NN, ∀ old, ∀ i < d.NX, cb.dynAD (node d var k) (o.time k) old i = F k i)
    {k a : ℕ} (hk : k < d.NN) (ha : a < d.NX) :
    (equalitiesLin d A cb o junk var c0).1 (k * d.NX + a) = diffX d A var junk k a - tScale d o * (F k a).val ∧
    ∀ c < d.VAR, (equalitiesLin d A cb o junk var c0).2.1 (k * d.NX + a) c
      = denseDiffPart d A (k * d.NX + a) c - tScale d o * scatter d k (derAt (F k a)) c := by
  refine ⟨?_, fun c hc => ?_⟩
  · unfold equalitiesLin
    dsimp only
    refine loop_one (fun s : (ℕ → Dual d.M K) × (ℕ → K) × (ℕ → ℕ → K) => s.2.1 (k * d.NX + a)) hk _ _ ?_ ?_
    · intro t ht hne s
      have hr : ¬ (t * d.NX ≤ k * d.NX + a ∧ k * d.NX + a < t * d.NX + d.NX) := fun h => hne ((blk k t ha).1 h)
      simp only [setSeg, addSeg, hr, if_false]
    · intro s hs
      have hr : k * d.NX ≤ k * d.NX + a ∧ k * d.NX + a < k * d.NX + d.NX := by omega
      simp only [setSeg, addSeg, hr, and_self, if_true, Nat.add_sub_cancel_left]
      rw [hw k hk _ a ha]; ring
  · unfold equalitiesLin
    dsimp only
    refine loop_one (fun s : (ℕ → Dual d.M K) × (ℕ → K) × (ℕ → ℕ → K) => s.2.2 (k * d.NX + a) c) hk _ _ ?_ ?_
    · intro t ht hne s
      dsimp only
      exact addRows_off d s.2.2 hne ha _ _ _ _ _ _ _ _ _ c
    · intro s hs
      have h := addRows_apply d s.2.2 hk ha
        (fun r m => -(tScale d o * derAt (cb.dynAD (node d var k) (o.time k) s.1 r) m)) hc
      refine h.trans ?_
      rw [hw k hk _ a ha]
      rw [show s.2.2 (k * d.NX + a) c = denseDiffPart d A (k * d.NX + a) c from hs]
      have e : scatter d k (fun m => -(tScale d o * derAt (F k a) m)) c = -(tScale d o * scatter d k (derAt (F k a)) c) := by
        unfold scatter
        rw [Finset.mul_sum, ← Finset.sum_neg_distrib]
        refine Finset.sum_congr rfl fun i _ => ?_
        split_ifs <;> simp
      rw [e]; ring

theorem inequalitiesLin_closed (d : Dims) (cb : Cbs d K) (o : Obj d K) (var c0 : ℕ → K)
    (F : ℕ → ℕ → Dual d.M K) (hw : ∀ k < d.NN, ∀ old, ∀ i < d.NG, cb.ineqAD (node d var k) (o.time k) old i = F k i)
    {k a : ℕ} (hk : k < d.NN) (ha : a < d.NG) :
    (inequalitiesLin d cb o var c0).1 (k * d.NG + a) = (F k a).val ∧
    ∀ c < d.VAR, (inequalitiesLin d cb o var c0).2.1 (k * d.NG + a) c = scatter d k (derAt (F k a)) c := by
  refine ⟨?_, fun c hc => ?_⟩
  · unfold inequalitiesLin
    dsimp only
    refine loop_one (fun s : (ℕ → Dual d.M K) × (ℕ → K) × (ℕ → ℕ → K) => s.2.1 (k * d.NG + a)) hk _ _ ?_ ?_
    · intro t ht hne s
      have hr : ¬ (t * d.NG ≤ k * d.NG + a ∧ k * d.NG + a < t * d.NG + d.NG) := fun h => hne ((blk k t ha).1 h)
      simp only [setSeg, hr, if_false]
    · intro s hs
      have hr : k * d.NG ≤ k * d.NG + a ∧ k * d.NG + a < k * d.NG + d.NG := by omega
      simp only [setSeg, hr, and_self, if_true, Nat.add_sub_cancel_left]
      rw [hw k hk _ a ha]
  · unfold inequalitiesLin
    dsimp only
    refine loop_one (fun s : (ℕ → Dual d.M K) × (ℕ → K) × (ℕ → ℕ → K) => s.2.2 (k * d.NG + a) c) hk _ _ ?_ ?_
    · intro t ht hne s
      dsimp only
      exact setRows_off d s.2.2 hne ha _ _ _ _ _ _ _ _ _ c
    · intro s hs
      have h := setRows_apply d s.2.2 hk ha
        (fun r m => derAt (cb.ineqAD (node d var k) (o.time k) s.1 r) m) hc hs
      refine h.trans ?_
      rw [hw k hk _ a ha]

/-! ### Cost -/

theorem loop_fold {σ : Type*} {f g : ℕ → σ → σ} {n : ℕ} {s : σ} (h : ∀ i < n, ∀ s, f i s = g i s) : loop n f s = loop n g s := by
  induction n with
  | zero => rfl
  | succ n ih => rw [loop_succ, loop_succ, ih fun i hi => h i (by omega), h n (by omega)]

/-- The double loop over segments and nodes. -/
theorem double_sum {σ : Type*} (get : σ → K) (f : ℕ → ℕ → σ → σ) (v : ℕ → ℕ → K) (n m : ℕ) (s : σ)
    (h : ∀ i < n, ∀ k < m, ∀ s, get (f i k s) = get s + v i k) :
    get (loop n (fun i s => loop m (f i) s) s) = get s + ∑ i ∈ Finset.range n, ∑ k ∈ Finset.range m, v i k := by
  induction n with
  | zero => simp [loop]
  | succ n ih =>
    rw [loop_succ, Finset.sum_range_succ]
    have inner : ∀ t : σ, get (loop m (f n) t) = get t + ∑ k ∈ Finset.range m, v n k := by
      intro t
      refine loop_inv (P := fun m' t' => m' ≤ m → get t' = get t + ∑ k ∈ Finset.range m', v n k) (by simp) ?_ le_rfl
      intro k hk t' ht' hk'
      rw [h n (by omega) k hk, ht' (by omega), Finset.sum_range_succ]; ring
    rw [inner, ih fun i hi => h i (by omega)]; ring

/-- The quadrature sum of node values `L`. -/
def quad (d : Dims) (A : Approx K) (ts : K) (L : ℕ → K) : K :=
  ∑ s ∈ Finset.range d.S, ∑ j ∈ Finset.range (d.N + 1), ts * A.w j * L (s * d.N + j)

theorem quad_node_lt (d : Dims) {s k : ℕ} (hs : s < d.S) (hk : k < d.N + 1) : k + s * d.N < d.NN := by
  have := node_lt d hs (show k ≤ d.N by omega); omega

theorem cost_closed (d : Dims) (A : Approx K) (cb : Cbs d K) (o : Obj d K) (var : ℕ → K) (L : ℕ → K)
    (hw : ∀ k < d.NN, ∀ old, cb.lag (node d var k) (o.time k) old = L k) :
    cost d A cb o var = quad d A (tScale d o) L + cb.mayer (node d var 0) (o.time 0) 0 := by
  unfold cost quad
  have h := double_sum (fun st : K × K => st.1) (fun s k st =>
    let ci := cb.lag (node d var (k + s * d.N)) (o.time (k + s * d.N)) st.2
    (st.1 + tScale d o * A.w k * ci, ci)) (fun s j => tScale d o * A.w j * L (s * d.N + j)) d.S (d.N + 1) (0, 0)
    (fun i hi k hk s => by
      show s.1 + _ * cb.lag _ _ _ = _
      rw [hw _ (quad_node_lt d hi hk), Nat.add_comm k])
  simp only [zero_add] at h
  simp only [h]

/-- With the default running cost the variable keeps its initial zero. -/
theorem cost_default (d : Dims) (A : Approx K) (cb : Cbs d K) (o : Obj d K) (var : ℕ → K)
    (hw : ∀ z t old, cb.lag z t old = old) : cost d A cb o var = cb.mayer (node d var 0) (o.time 0) 0 := by
  unfold cost
  have h : (fun st : K × K => st.2 = 0 ∧ st.1 = 0) (loop d.S (fun s st => loop (d.N + 1) (fun k (st : K × K) =>
    let ci := cb.lag (node d var (k + s * d.N)) (o.time (k + s * d.N)) st.2
    (st.1 + tScale d o * A.w k * ci, ci)) st) (0, 0)) := by
    refine loop_inv (P := fun _ (st : K × K) => st.2 = 0 ∧ st.1 = 0) ⟨rfl, rfl⟩ fun s _ st hst => ?_
    refine loop_inv (P := fun _ (st : K × K) => st.2 = 0 ∧ st.1 = 0) hst fun k _ st hst => ?_
    simp only [hw, hst.1, hst.2]; simp
  simp only [h.2, zero_add]

theorem costGradient_closed (d : Dims) (A : Approx K) (cb : Cbs d K) (o : Obj d K) (var : ℕ → K) (L : ℕ → Dual d.M K)
    (hw : ∀ k < d.NN, ∀ old, cb.lagAD (node d var k) (o.time k) old = L k) :
    (costGradient d A cb o var).1 = quad d A (tScale d o) (fun k => (L k).val) + (cb.mayerAD (node d var 0) (o.time 0) ⟨0, fun _ => 0⟩).val ∧
    ∀ c < d.VAR, (costGradient d A cb o var).2.1 c = quad d A (tScale d o) (fun k => scatter d k (derAt (L k)) c)
      + scatter d 0 (derAt (cb.mayerAD (node d var 0) (o.time 0) ⟨0, fun _ => 0⟩)) c := by
  have h0 : 0 < d.NN := by unfold Dims.NN; omega
  refine ⟨?_, fun c hc => ?_⟩
  · have h := double_sum (fun st : K × (ℕ → K) × Dual d.M K => st.1) (fun s k st =>
      let a := cb.lagAD (node d var (k + s * d.N)) (o.time (k + s * d.N)) st.2.2
      (st.1 + tScale d o * A.w k * a.val, addNode d st.2.1 (k + s * d.N) (tScale d o * A.w k) (derAt a), a))
      (fun s j => tScale d o * A.w j * (L (s * d.N + j)).val) d.S (d.N + 1) ((0 : K), (fun _ => (0 : K)), (⟨0, o.adCost.der⟩ : Dual d.M K))
      (fun i hi k hk s => by
        show s.1 + _ * (cb.lagAD _ _ _).val = _
        rw [hw _ (quad_node_lt d hi hk), Nat.add_comm k])
    simp only [zero_add] at h
    unfold costGradient quad
    simp only [h]
  · have h := double_sum (fun st : K × (ℕ → K) × Dual d.M K => st.2.1 c) (fun s k st =>
      let a := cb.lagAD (node d var (k + s * d.N)) (o.time (k + s * d.N)) st.2.2
      (st.1 + tScale d o * A.w k * a.val, addNode d st.2.1 (k + s * d.N) (tScale d o * A.w k) (derAt a), a))
      (fun s j => tScale d o * A.w j * scatter d (s * d.N + j) (derAt (L (s * d.N + j))) c) d.S (d.N + 1)
      ((0 : K), (fun _ => (0 : K)), (⟨0, o.adCost.der⟩ : Dual d.M K))
      (fun i hi k hk s => by
        show addNode d _ _ _ _ _ = _
        rw [addNode_apply d _ (quad_node_lt d hi hk) _ _ hc, hw _ (quad_node_lt d hi hk), Nat.add_comm k])
    simp only [zero_add] at h
    unfold costGradient quad
    simp only [addNode_apply d _ h0 _ _ hc, h, one_mul]

theorem loop_congr {σ : Type*} (P : σ → Prop) {f g : ℕ → σ → σ} {n : ℕ} {s : σ} (h0 : P s)
    (h : ∀ i < n, ∀ s, P s → P (f i s) ∧ f i s = g i s) : P (loop n f s) ∧ loop n f s = loop n g s := by
  induction n with
  | zero => exact ⟨h0, rfl⟩
  | succ n ih =>
    have i := ih fun i hi => h i (by omega)
    have := h n (by omega) _ i.1
    rw [loop_succ, loop_succ, ← i.2]
    exact this

/-- With the default running cost every node contributes the derivatives left in the accumulator. -/
theorem costGradient_default (d : Dims) (A : Approx K) (cb : Cbs d K) (o : Obj d K) (var : ℕ → K)
    (hw : ∀ z t old, cb.lagAD z t old = old) {c : ℕ} (hc : c < d.VAR) :
    (costGradient d A cb o var).2.1 c = quad d A (tScale d o) (fun k => scatter d k (derAt o.adCost) c)
      + scatter d 0 (derAt (cb.mayerAD (node d var 0) (o.time 0) ⟨0, fun _ => 0⟩)) c := by
  let cb' : Cbs d K := { cb with lagAD := fun _ _ _ => ⟨0, o.adCost.der⟩ }
  have h := (costGradient_closed d A cb' o var (fun _ => ⟨0, o.adCost.der⟩) (fun _ _ _ => rfl)).2 c hc
  have e : (costGradient d A cb o var).2.1 = (costGradient d A cb' o var).2.1 := by
    unfold costGradient
    dsimp only
    rw [(loop_congr (fun st : K × (ℕ → K) × Dual d.M K => st.2.2 = ⟨0, o.adCost.der⟩) rfl fun s _ st hst => ?_).2]
    refine loop_congr (fun st : K × (ℕ → K) × Dual d.M K => st.2.2 = ⟨0, o.adCost.der⟩) hst fun k _ st hst => ?_
    simp only [hw, hst, cb', and_self]
  rw [e, h]
  rfl

end PolyMPC.Ocp
