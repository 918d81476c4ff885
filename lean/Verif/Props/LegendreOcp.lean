import Verif.Model.LegendreOcp
import Verif.Props.LegendreScheme
import Verif.Props.Ocp

/-!
# Optimal control problems with Legendre collocation (C231)

The transcription of `ContinuousOCP` is written for descending nodes; those of `Legendre` ascend, and two entries of its differentiation matrix have the wrong sign (C34).
What follows for the user: no solution of the differential equation is feasible unless it vanishes at the ends of all segments, and the times handed to the callbacks are not in order.
-/

namespace PolyMPC.Ocp
open Polynomial PolyMPC.Spec PolyMPC.Lgl

local notation "P" => legendre ℝ

variable {d : Dims} {S : Scheme d.N}

theorem leg_node {N : ℕ} (S : Scheme N) (i : Fin (N + 1)) : (legApprox S).nodes i = S.nodes i := dif_pos i.2

theorem leg_D {N : ℕ} (S : Scheme N) (i j : Fin (N + 1)) : (legApprox S).D i j = S.D i j := dif_pos ⟨i.2, j.2⟩

/-- The values at the nodes of segment `s`, component `i`, are those of the polynomial `Q` on the reference interval. -/
def Interpolates (d : Dims) (S : Scheme d.N) (var : ℕ → ℝ) (s i : ℕ) (Q : ℝ[X]) : Prop :=
  Q.natDegree ≤ d.N ∧ ∀ l : Fin (d.N + 1), Q.eval (S.nodes l) = var ((s * d.N + l) * d.NX + i)

/-- There is always exactly one such polynomial. -/
theorem exists_interpolates (h : Built d.N S) (var : ℕ → ℝ) (s i : ℕ) : ∃ Q, Interpolates d S var s i Q := by
  have hinj : Set.InjOn S.nodes (Finset.univ : Finset (Fin (d.N + 1))) := h.nodes.mono.injective.injOn
  refine ⟨_root_.Lagrange.interpolate Finset.univ S.nodes fun l => var ((s * d.N + l) * d.NX + i), ?_, fun l => ?_⟩
  · have := _root_.Lagrange.degree_interpolate_lt (fun l : Fin (d.N + 1) => var ((s * d.N + l) * d.NX + i)) hinj
    rw [Finset.card_univ, Fintype.card_fin] at this
    exact natDegree_le_iff_coeff_eq_zero.2 fun m hm => (degree_lt_iff_coeff_zero _ _).1 this m hm
  · exact _root_.Lagrange.eval_interpolate_at_node (fun l : Fin (d.N + 1) => var ((s * d.N + l) * d.NX + i)) hinj (Finset.mem_univ l)

theorem first_value (h : Built d.N S) {var : ℕ → ℝ} {s i : ℕ} {Q : ℝ[X]} (hQ : Interpolates d S var s i Q) : Q.eval (-1) = var (s * d.N * d.NX + i) := by
  have := hQ.2 0
  rw [h.nodes.first] at this
  simpa using this

theorem last_value (h : Built d.N S) {var : ℕ → ℝ} {s i : ℕ} {Q : ℝ[X]} (hQ : Interpolates d S var s i Q) : Q.eval 1 = var ((s + 1) * d.N * d.NX + i) := by
  have := hQ.2 (Fin.last d.N)
  rw [h.nodes.last] at this
  rw [this, Fin.val_last]
  congr 2
  ring

/-- The equality constraints: those of collocation, plus a multiple of the state at the first node of each segment and minus one of the state at the last node of all. -/
theorem leg_residual (h : Built d.N S) (cb : Cbs d ℝ) (o : Obj d ℝ) (junk : ℕ → ℕ → ℝ) (var c0 : ℕ → ℝ)
    (hw : ∀ z t old old', ∀ i < d.NX, cb.dyn z t old i = cb.dyn z t old' i) {s i : ℕ} (hs : s < d.S) (hi : i < d.NX) {Q : ℝ[X]} (hQ : Interpolates d S var s i Q)
    (j : Fin (d.N + 1)) (hjs : j.val < d.N ∨ s + 1 = d.S) :
    constraints d (legApprox S) cb o junk var c0 ((s * d.N + j) * d.NX + i)
      = Q.derivative.eval (S.nodes j) - (o.tStop - o.tStart) / (2 * d.S) * cb.dyn (node d var (s * d.N + j)) (o.time (s * d.N + j)) (fun _ => 0) i
        + (if j.val = 0 then d.N * (d.N + 1) / 2 * var (s * d.N * d.NX + i) else if j.val = d.N then -(d.N * (d.N + 1) / 2 * var ((s + 1) * d.N * d.NX + i)) else 0) := by
  rw [residual d _ cb o junk var c0 hw hs (by omega) hjs hi, Finset.sum_range]
  have e : ∑ l : Fin (d.N + 1), (legApprox S).D j l * var ((s * d.N + l) * d.NX + i) = ∑ l, S.D j l * Q.eval (S.nodes l) :=
    Finset.sum_congr rfl fun l _ => by rw [leg_D, hQ.2]
  rw [e, h.D_apply hQ.1, first_value h hQ, last_value h hQ]
  ring

/-- **C231.** Solutions of the collocation equations are not feasible: if the states satisfy the differential equation at all nodes, then the equality constraints hold exactly if the state is zero at the
first node of every segment and at the last node of all. -/
theorem leg_solution_infeasible (h : Built d.N S) (cb : Cbs d ℝ) (o : Obj d ℝ) (junk : ℕ → ℕ → ℝ) (var c0 : ℕ → ℝ) (hS : 1 ≤ d.S)
    (hw : ∀ z t old old', ∀ i < d.NX, cb.dyn z t old i = cb.dyn z t old' i)
    (hsol : ∀ s < d.S, ∀ i < d.NX, ∃ Q, Interpolates d S var s i Q ∧ ∀ j : Fin (d.N + 1),
      Q.derivative.eval (S.nodes j) = (o.tStop - o.tStart) / (2 * d.S) * cb.dyn (node d var (s * d.N + j)) (o.time (s * d.N + j)) (fun _ => 0) i) :
    (∀ r < d.NEQ, constraints d (legApprox S) cb o junk var c0 r = 0) ↔ ∀ s ≤ d.S, ∀ i < d.NX, var (s * d.N * d.NX + i) = 0 := by
  have hN := h.order
  have hNN : (d.N * (d.N + 1) / 2 : ℝ) ≠ 0 := by
    have : (0 : ℝ) < d.N := by exact_mod_cast hN
    positivity
  constructor
  · intro hz s hs i hi
    rcases Nat.lt_or_ge s d.S with hlt | hge
    · obtain ⟨Q, hQ, hd⟩ := hsol s hlt i hi
      have e := leg_residual h cb o junk var c0 hw hlt hi hQ 0 (Or.inl (by show 0 < d.N; omega))
      rw [hz _ (xIdx_lt d (node_lt d hlt (by simp)) hi), hd 0, sub_self, zero_add, if_pos (by rfl)] at e
      exact (mul_eq_zero.1 e.symm).resolve_left hNN
    · obtain ⟨s', hs'⟩ : ∃ s', s' + 1 = d.S := ⟨d.S - 1, by omega⟩
      have es : s = s' + 1 := by omega
      obtain ⟨Q, hQ, hd⟩ := hsol s' (by omega) i hi
      have e := leg_residual h cb o junk var c0 hw (by omega) hi hQ (Fin.last d.N) (Or.inr hs')
      rw [hz _ (xIdx_lt d (node_lt d (by omega) (by simp)) hi), hd, sub_self, zero_add, if_neg (by simp; omega), if_pos (by rfl)] at e
      rw [es]
      exact (mul_eq_zero.1 (neg_eq_zero.1 e.symm)).resolve_left hNN
  · intro hz r hr
    obtain ⟨k, i, hk, hi, rfl⟩ := blk_split hr
    obtain ⟨s, j, hs, hj, hjs, rfl⟩ := node_split d hS hN hk
    obtain ⟨Q, hQ, hd⟩ := hsol s hs i hi
    have e := leg_residual h cb o junk var c0 hw hs hi hQ ⟨j, by omega⟩ hjs
    rw [hd, hz s hs.le i hi, hz (s + 1) hs i hi, sub_self, zero_add] at e
    simpa using e

/-- A polynomial whose derivative vanishes at the interior nodes is a multiple of the Legendre polynomial plus a constant. -/
theorem flat_interior {N : ℕ} (hN : 1 ≤ N) {x : Fin (N + 1) → ℝ} (hx : IsLGL N x) {Q : ℝ[X]} (hQ : Q.natDegree ≤ N)
    (h0 : ∀ i, 0 < i.val → i.val < N → Q.derivative.eval (x i) = 0) : ∃ c e : ℝ, Q = C c * P N + C e := by
  obtain ⟨-, hl⟩ := legendre_degree (K := ℝ) N
  have hl0 := lead_ne_zero (K := ℝ) N
  set c := Q.coeff N / lead ℝ N with hc
  set R := Q - C c * P N with hR
  have hcoeff : ∀ m, N ≤ m → R.coeff m = 0 := by
    intro m hm
    rw [hR, coeff_sub, coeff_C_mul]
    rcases eq_or_lt_of_le hm with rfl | hlt
    · rw [hl, hc, div_mul_cancel₀ _ hl0, sub_self]
    · rw [coeff_eq_zero_of_natDegree_lt (lt_of_le_of_lt hQ hlt), coeff_eq_zero_of_natDegree_lt (by rw [legendre_natDegree]; exact hlt), mul_zero, sub_zero]
  have hD : derivative R = 0 := by
    refine Polynomial.eq_zero_of_degree_lt_of_eval_index_eq_zero (s := (Finset.univ : Finset (Fin (N - 1)))) (v := fun k => x ⟨k.val + 1, by omega⟩) ?_ ?_ fun k _ => ?_
    · intro a _ b _ hab
      have := hx.mono.injective hab
      exact Fin.ext (by have := Fin.mk.inj_iff.1 this; omega)
    · rw [Finset.card_univ, Fintype.card_fin, degree_lt_iff_coeff_zero]
      intro m hm
      rw [coeff_derivative, hcoeff (m + 1) (by omega), zero_mul]
    · rw [hR, derivative_sub, derivative_C_mul, eval_sub, eval_mul, eval_C, h0 _ (by simp) (by simp; omega), hx.interior _ (by simp) (by simp; omega)]
      ring
  refine ⟨c, R.coeff 0, ?_⟩
  have : R = C (R.coeff 0) := eq_C_of_natDegree_eq_zero (Polynomial.derivative_eq_zero.1 hD)
  rw [← this, hR]
  ring

/-- **C231.** A system at rest (`ẋ = 0`) does not stay at rest: the equality constraints hold exactly if the states on each segment are multiples of the Legendre polynomial of degree `N` at the nodes. -/
theorem leg_rest (h : Built d.N S) (cb : Cbs d ℝ) (o : Obj d ℝ) (junk : ℕ → ℕ → ℝ) (var c0 : ℕ → ℝ) (hS : 1 ≤ d.S)
    (hrest : ∀ z t old, ∀ i < d.NX, cb.dyn z t old i = 0) :
    (∀ r < d.NEQ, constraints d (legApprox S) cb o junk var c0 r = 0) ↔
      ∀ s < d.S, ∀ i < d.NX, ∃ c : ℝ, ∀ l : Fin (d.N + 1), var ((s * d.N + l) * d.NX + i) = c * (P d.N).eval (S.nodes l) := by
  have hN := h.order
  have hNN : (d.N * (d.N + 1) / 2 : ℝ) ≠ 0 := by
    have : (0 : ℝ) < d.N := by exact_mod_cast hN
    positivity
  have hw : ∀ z t old old', ∀ i < d.NX, cb.dyn z t old i = cb.dyn z t old' i := fun z t old old' i hi => by rw [hrest z t old i hi, hrest z t old' i hi]
  constructor
  · intro hz s hs i hi
    obtain ⟨Q, hQ⟩ := exists_interpolates h var s i
    have hres := fun j (hj : j.val < d.N) => leg_residual h cb o junk var c0 hw hs hi hQ j (Or.inl hj)
    have hz' : ∀ j : Fin (d.N + 1), constraints d (legApprox S) cb o junk var c0 ((s * d.N + j) * d.NX + i) = 0 := fun j =>
      hz _ (xIdx_lt d (node_lt d hs (by omega)) hi)
    obtain ⟨c, e, hQe⟩ := flat_interior hN h.nodes hQ.1 fun j h0 hj => by
      have := hres j hj
      rw [hz', hrest _ _ _ i hi, mul_zero, sub_zero, if_neg (by omega), if_neg (by omega), add_zero] at this
      exact this.symm
    have he : e = 0 := by
      have := hres 0 (by show 0 < d.N; omega)
      rw [hz', hrest _ _ _ i hi, mul_zero, sub_zero, if_pos (by rfl), h.nodes.first, ← first_value h hQ, hQe] at this
      simp only [derivative_add, derivative_C_mul, derivative_C, add_zero, eval_mul, eval_C, eval_add] at this
      rw [derivative_P_neg_one, legendre_eval_neg_one] at this
      have h2 : (d.N * (d.N + 1) / 2 : ℝ) * e = 0 := by linear_combination -this
      exact (mul_eq_zero.1 h2).resolve_left hNN
    refine ⟨c, fun l => ?_⟩
    rw [← hQ.2 l, hQe, he]
    simp
  · intro hc r hr
    obtain ⟨k, i, hk, hi, rfl⟩ := blk_split hr
    obtain ⟨s, j, hs, hj, hjs, rfl⟩ := node_split d hS hN hk
    obtain ⟨c, hc⟩ := hc s hs i hi
    have hQ : Interpolates d S var s i (C c * P d.N) := by
      refine ⟨(natDegree_C_mul_le _ _).trans (legendre_natDegree _).le, fun l => ?_⟩
      rw [hc l]
      simp
    have e := leg_residual h cb o junk var c0 hw hs hi hQ ⟨j, by omega⟩ hjs
    rw [hrest _ _ _ i hi, ← first_value h hQ, ← last_value h hQ] at e
    rw [e, derivative_C_mul]
    simp only [eval_mul, eval_C, mul_zero, sub_zero]
    by_cases h0 : j = 0
    · subst h0
      rw [if_pos rfl, show (⟨0, by omega⟩ : Fin (d.N + 1)) = 0 from rfl, h.nodes.first, derivative_P_neg_one, legendre_eval_neg_one]
      ring
    · by_cases h1 : j = d.N
      · subst h1
        rw [if_neg (by simpa using h0), if_pos rfl, show (⟨d.N, by omega⟩ : Fin (d.N + 1)) = Fin.last d.N from rfl, h.nodes.last, derivative_P_one, legendre_eval_one]
        ring
      · rw [if_neg (by simpa using h0), if_neg (by simpa using h1), h.nodes.interior _ (by simp; omega) (by simp; omega)]
        ring

/-- **C231.** In particular the state changes sign from one end of a segment to the other if the order is odd, and no state but zero can be kept. -/
theorem leg_rest_ends (h : Built d.N S) (cb : Cbs d ℝ) (o : Obj d ℝ) (junk : ℕ → ℕ → ℝ) (var c0 : ℕ → ℝ) (hS : 1 ≤ d.S)
    (hrest : ∀ z t old, ∀ i < d.NX, cb.dyn z t old i = 0) (hz : ∀ r < d.NEQ, constraints d (legApprox S) cb o junk var c0 r = 0) {i : ℕ} (hi : i < d.NX) :
    (∀ s ≤ d.S, var (s * d.N * d.NX + i) = (-1) ^ (d.N * s) * var i) ∧ ((∀ k < d.NN, var (k * d.NX + i) = var i) → var i = 0) := by
  have hc := (leg_rest h cb o junk var c0 hS hrest).1 hz
  have hN := h.order
  refine ⟨fun s => ?_, fun hk => ?_⟩
  · induction s with
    | zero => intro _; simp
    | succ s ih =>
      intro hs
      obtain ⟨c, hc⟩ := hc s (by omega) i hi
      have e0 := hc 0
      have e1 := hc (Fin.last d.N)
      rw [h.nodes.first, legendre_eval_neg_one, Fin.val_zero, Nat.add_zero, ih (by omega)] at e0
      rw [h.nodes.last, legendre_eval_one, Fin.val_last, show s * d.N + d.N = (s + 1) * d.N by ring, mul_one] at e1
      have h2 : ((-1 : ℝ)) ^ d.N * (-1) ^ d.N = 1 := by rw [← mul_pow]; norm_num
      rw [e1, show d.N * (s + 1) = d.N + d.N * s by ring, pow_add, mul_assoc, e0]
      linear_combination -c * h2
  · have hw : ∀ z t old old', ∀ i < d.NX, cb.dyn z t old i = cb.dyn z t old' i := fun z t old old' i hi => by rw [hrest z t old i hi, hrest z t old' i hi]
    have hQ : Interpolates d S var 0 i (C (var i)) := by
      refine ⟨by simp, fun l => ?_⟩
      rw [hk _ (by have := node_lt d (s := 0) (j := l) (by omega) (by omega); exact this)]
      simp
    have e := leg_residual h cb o junk var c0 hw (by omega : 0 < d.S) hi hQ 0 (Or.inl (by show 0 < d.N; omega))
    rw [hz _ (xIdx_lt d (node_lt d (s := 0) (by omega) (by simp)) hi), hrest _ _ _ i hi, if_pos (by rfl)] at e
    simp only [derivative_C, eval_zero, mul_zero, sub_zero, zero_add, zero_mul] at e
    have hNN : (d.N * (d.N + 1) / 2 : ℝ) ≠ 0 := by
      have : (0 : ℝ) < d.N := by exact_mod_cast hN
      positivity
    exact (mul_eq_zero.1 e.symm).resolve_left hNN

theorem leg_grid (A : Approx ℝ) (t0 len : ℝ) (tn : ℕ → ℝ) (m : ℕ) :
    ∀ i < m, ∀ j ≤ d.N, (j < d.N ∨ i + 1 = m) →
    loop m (fun i tn => setSeg tn (i * d.N) (d.N + 1) fun j => len / 2 * A.nodes (d.N - j) + (t0 + len / 2 + (i : ℝ) * len)) tn (i * d.N + j)
      = len / 2 * A.nodes (d.N - j) + (t0 + len / 2 + (i : ℝ) * len) := by
  induction m with
  | zero => intro i hi; omega
  | succ m ih =>
    intro i hi j hj hjm
    rw [loop_succ]
    unfold setSeg
    rcases Nat.lt_or_ge i m with him | him
    · have h1 : (i + 1) * d.N ≤ m * d.N := Nat.mul_le_mul_right _ him
      rw [Nat.add_mul, Nat.one_mul] at h1
      rw [if_neg (by omega)]
      exact ih i him j hj (Or.inl (by omega))
    · have e : i = m := by omega
      subst e
      rw [if_pos (by omega), Nat.add_sub_cancel_left]

/-- **C231.** The times are not in order either. Node 0, which holds the final state, is given the start of the last segment, and the last node, which holds the initial state, the end of the first; within
each segment the times increase with the index of the node while the segments follow each other in decreasing time. -/
theorem leg_times (h : Built d.N S) (hS : 1 ≤ d.S) (o : Obj d ℝ) (t0 tf : ℝ) :
    (setTimeLimits d (legApprox S) o t0 tf).time 0 = tf - (tf - t0) / d.S ∧
    (setTimeLimits d (legApprox S) o t0 tf).time (d.S * d.N) = t0 + (tf - t0) / d.S ∧
    (t0 < tf → ∀ s < d.S, ∀ l l', 0 < l → l < l' → l' ≤ d.N →
      (setTimeLimits d (legApprox S) o t0 tf).time (s * d.N + l) < (setTimeLimits d (legApprox S) o t0 tf).time (s * d.N + l')) := by
  have hN := h.order
  have hS0 : (0 : ℝ) < d.S := by exact_mod_cast hS
  have key : ∀ s < d.S, ∀ l : Fin (d.N + 1), (0 < l.val ∨ s = 0) → (setTimeLimits d (legApprox S) o t0 tf).time (s * d.N + l)
      = (tf - t0) / d.S / 2 * S.nodes l + (t0 + (tf - t0) / d.S / 2 + ((d.S - 1 - s : ℕ) : ℝ) * ((tf - t0) / d.S)) := by
    intro s hs l hl
    have e : d.NN - 1 - (s * d.N + l) = (d.S - 1 - s) * d.N + (d.N - l) := by
      have h3 : d.S * d.N = (d.S - 1 - s) * d.N + s * d.N + d.N := by
        conv_lhs => rw [show d.S = (d.S - 1 - s) + s + 1 by omega]
        ring
      have := l.2
      unfold Dims.NN
      omega
    show loop d.S _ o.time (d.NN - 1 - (s * d.N + l)) = _
    rw [e, leg_grid (legApprox S) t0 ((tf - t0) / d.S) o.time d.S (d.S - 1 - s) (by omega) (d.N - l) (by omega) (by omega),
      show d.N - (d.N - l.val) = l.val by have := l.2; omega, leg_node]
  refine ⟨?_, ?_, fun ht s hs l l' h0 hll hl' => ?_⟩
  · have := key 0 (by omega) 0 (Or.inr rfl)
    rw [h.nodes.first, Nat.sub_zero, Nat.cast_sub hS, Nat.zero_mul, Fin.val_zero] at this
    rw [show (0 : ℕ) = 0 + 0 from rfl, this]
    push_cast
    field_simp
    ring
  · have := key (d.S - 1) (by omega) (Fin.last d.N) (Or.inl (by rw [Fin.val_last]; omega))
    rw [h.nodes.last, Nat.sub_self, Fin.val_last] at this
    rw [show d.S * d.N = (d.S - 1) * d.N + d.N by
      conv_lhs => rw [show d.S = (d.S - 1) + 1 by omega]
      ring]
    rw [this]
    push_cast
    ring
  · have e1 := key s hs ⟨l, by omega⟩ (Or.inl h0)
    have e2 := key s hs ⟨l', by omega⟩ (Or.inl (by show 0 < l'; omega))
    rw [e1, e2]
    have hm : S.nodes ⟨l, by omega⟩ < S.nodes ⟨l', by omega⟩ := h.nodes.mono hll
    have : 0 < (tf - t0) / d.S / 2 := by have := sub_pos.2 ht; positivity
    have := mul_lt_mul_of_pos_left hm this
    linarith

/-- An instance: one state, one control, 3 segments of degree 5. A scheme exists, the trajectory made of Legendre polynomials is feasible for `ẋ = 0`, and a plant at rest at 1 is predicted to end at -1. -/
example (cb : Cbs ⟨1, 1, 0, 0, 3, 5⟩ ℝ) (hrest : ∀ z t old, ∀ i < 1, cb.dyn z t old i = 0) (o : Obj ⟨1, 1, 0, 0, 3, 5⟩ ℝ) (junk : ℕ → ℕ → ℝ) (c0 : ℕ → ℝ) :
    ∃ S : Scheme 5, Built 5 S ∧
      ∀ var : ℕ → ℝ, (∀ r < 16, constraints ⟨1, 1, 0, 0, 3, 5⟩ (legApprox S) cb o junk var c0 r = 0) → var 15 = 1 → var 0 = -1 := by
  obtain ⟨S, hS⟩ := exists_built (N := 5) (by norm_num)
  refine ⟨S, hS, fun var hz h1 => ?_⟩
  have := (leg_rest_ends (d := ⟨1, 1, 0, 0, 3, 5⟩) hS cb o junk var c0 (by norm_num) hrest hz (i := 0) (by norm_num)).1 3 le_rfl
  norm_num at this
  linarith

/-- Feasible points with that initial state exist. -/
example (cb : Cbs ⟨1, 1, 0, 0, 1, 1⟩ ℝ) (hrest : ∀ z t old, ∀ i < 1, cb.dyn z t old i = 0) (o : Obj ⟨1, 1, 0, 0, 1, 1⟩ ℝ) (junk : ℕ → ℕ → ℝ) (c0 : ℕ → ℝ) :
    ∃ S : Scheme 1, Built 1 S ∧ ∀ r < 2, constraints ⟨1, 1, 0, 0, 1, 1⟩ (legApprox S) cb o junk (fun k => if k = 0 then -1 else 1) c0 r = 0 := by
  obtain ⟨S, hS⟩ := exists_built (N := 1) le_rfl
  refine ⟨S, hS, (leg_rest (d := ⟨1, 1, 0, 0, 1, 1⟩) hS cb o junk _ c0 le_rfl hrest).2 fun s hs i hi => ⟨1, fun l => ?_⟩⟩
  have hs0 : s = 0 := by have : s < 1 := hs; omega
  have hi0 : i = 0 := by have : i < 1 := hi; omega
  subst hs0 hi0
  have n0 := hS.nodes.first
  have n1 := hS.nodes.last
  show _ = 1 * (P 1).eval _
  rw [legendre_one]
  change Fin 2 at l
  fin_cases l
  · show (if (0 * 1 + 0) * 1 + 0 = 0 then (-1 : ℝ) else 1) = 1 * X.eval (S.nodes 0)
    rw [n0]; norm_num
  · show (if (0 * 1 + 1) * 1 + 0 = 0 then (-1 : ℝ) else 1) = 1 * X.eval (S.nodes (Fin.last 1))
    rw [n1]; norm_num

end PolyMPC.Ocp
