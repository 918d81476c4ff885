import Verif.Lemmas.OcpSparseHessStep

/-! # Sparse second derivatives: the Hessian after a first and after later calls -/

namespace PolyMPC.Ocp
open AD Sparse Sparse.Csc

set_option linter.unusedSectionVars false
set_option linter.unusedVariables false

variable {K : Type} [Field K] [DecidableEq K]

/-- A matrix that stores the entries `M` of the Hessian pattern without gaps. -/
structure HesForm (d : Dims) (H : Csc K) (M : ℕ → ℕ → K) : Prop where
  start : HesStart d H.start
  holds : Holds H d.VAR d.VAR (hesPat d) M

/-- Contribution of the quadrature points visited before point `k` of segment `s`. -/
def visited (d : Dims) (g : ℕ → ℕ → ℕ → ℕ → K) (s k r c : ℕ) : K :=
  (∑ s' ∈ Finset.range s, ∑ k' ∈ Finset.range (d.N + 1), scatter2 d (k' + s' * d.N) (g s' k') r c)
    + ∑ k' ∈ Finset.range k, scatter2 d (k' + s * d.N) (g s k') r c

/-- Number of nodes visited before point `k` of segment `s`. -/
def nodesAt (d : Dims) (s k : ℕ) : ℕ := if k = 0 then (if s = 0 then 0 else s * d.N + 1) else k + s * d.N

theorem visited_succ (d : Dims) (g : ℕ → ℕ → ℕ → ℕ → K) (s k r c : ℕ) :
    visited d g s (k + 1) r c = visited d g s k r c + scatter2 d (k + s * d.N) (g s k) r c := by
  unfold visited; rw [Finset.sum_range_succ, add_assoc]

theorem visited_next (d : Dims) (g : ℕ → ℕ → ℕ → ℕ → K) (s r c : ℕ) : visited d g s (d.N + 1) r c = visited d g (s + 1) 0 r c := by
  unfold visited; rw [Finset.sum_range_succ _ s, Finset.sum_range_zero, add_zero]

theorem nodesAt_next (d : Dims) (s : ℕ) : nodesAt d s (d.N + 1) = nodesAt d (s + 1) 0 := by
  unfold nodesAt; rw [if_neg (by omega), if_pos rfl, if_neg (by omega), Nat.add_mul]; omega

theorem nodesAt_first (d : Dims) {s k : ℕ} (h : ¬ (0 < s ∧ k = 0)) : nodesAt d s k = k + s * d.N ∧ nodesAt d s (k + 1) = k + s * d.N + 1 := by
  unfold nodesAt
  rw [if_neg (c := k + 1 = 0) (by omega)]
  by_cases hk : k = 0
  · have : s = 0 := by omega
    subst hk; subst this; simp
  · rw [if_neg hk]; omega

theorem nodesAt_again (d : Dims) {s : ℕ} (h : 0 < s) : nodesAt d s 0 = s * d.N + 1 ∧ nodesAt d s 1 = s * d.N + 1 := by
  unfold nodesAt
  rw [if_pos rfl, if_neg (by omega), if_neg (by omega)]; omega

/-- A node that has not been visited has no contribution yet. -/
theorem visited_zero (d : Dims) (g : ℕ → ℕ → ℕ → ℕ → K) {s k : ℕ} (hs : s < d.S) (hk : k < d.N + 1) (h : ¬ (0 < s ∧ k = 0)) {i j : ℕ} (hi : i < d.M)
    (hj : j < d.M) (hij : i < d.NX + d.NU ∨ j < d.NX + d.NU) :
    visited d g s k (nodeIdx d (k + s * d.N) i) (nodeIdx d (k + s * d.N) j) = 0 := by
  have hq := quad_node_lt d hs hk
  unfold visited
  rw [Finset.sum_eq_zero, Finset.sum_eq_zero, add_zero]
  · intro k' hk'
    rw [Finset.mem_range] at hk'
    rw [scatter2_entry d (quad_node_lt d hs (by omega)) hq hi hj hij, if_neg (by omega)]
  · intro s' hs'
    rw [Finset.mem_range] at hs'
    refine Finset.sum_eq_zero fun k' hk' => ?_
    rw [Finset.mem_range] at hk'
    have := mul_step (n := d.N) hs'
    rw [scatter2_entry d (quad_node_lt d (by omega) hk') hq hi hj hij, if_neg (by omega)]

/-! ### The loop -/

/-- The scaled node Hessian at a quadrature point. -/
def hesAt (d : Dims) (A : Approx K) (o : Obj d K) (L : ℕ → Dual d.M (Dual d.M K)) (s k : ℕ) : ℕ → ℕ → K :=
  fun r i => tScale d o * A.w k * hesOf (L (k + s * d.N)) r i

theorem hesLoop_matrix (d : Dims) (A : Approx K) (cb : Cbs d K) (o : Obj d K) (var : ℕ → K) (visit : ℕ → ℕ → (ℕ → ℕ → K) → List (Op K))
    (H : Csc K) (L : ℕ → Dual d.M (Dual d.M K)) (hw : ∀ k < d.NN, ∀ old, cb.lagAD2 (node d var k) (o.time k) old = L k)
    (Inv : ℕ → ℕ → Csc K → Prop) (h0 : Inv 0 0 H)
    (hstep : ∀ s < d.S, ∀ k < d.N + 1, ∀ B, Inv s k B → ∃ B', runOps d.VAR (visit s k (hesAt d A o L s k)) B = some B' ∧ Inv s (k + 1) B')
    (hnext : ∀ s < d.S, ∀ B, Inv s (d.N + 1) B → Inv (s + 1) 0 B) :
    ∃ B, (hesLoop d A cb o var visit H).2.2.1 = some B ∧ Inv d.S 0 B := by
  unfold hesLoop
  refine loop_inv (fun s (st : HesState d K) => ∃ B, st.2.2.1 = some B ∧ Inv s 0 B) ⟨H, rfl, h0⟩ fun s hs st hst => ?_
  have := loop_inv (n := d.N + 1) (fun k (st : HesState d K) => ∃ B, st.2.2.1 = some B ∧ Inv s k B)
    (f := fun k (st : HesState d K) =>
      let a := cb.lagAD2 (node d var (k + s * d.N)) (o.time (k + s * d.N)) st.2.2.2.2
      let hes : ℕ → ℕ → K := fun r i => tScale d o * A.w k * hesOf a r i
      (st.1 + tScale d o * A.w k * a.val.val, addNode d st.2.1 (k + s * d.N) (tScale d o * A.w k) (derAt a.val),
        st.2.2.1.bind (runOps d.VAR (visit s k hes)),
        fun r j => st.2.2.2.1 r j + hes (d.NX + d.NU + r) (d.NX + d.NU + j), a)) (s := st) hst (fun k hk st hst => by
    obtain ⟨B, e, hB⟩ := hst
    obtain ⟨B', e', hB'⟩ := hstep s hs k hk B hB
    refine ⟨B', ?_, hB'⟩
    dsimp only
    rw [e, hw _ (quad_node_lt d hs hk)]
    exact e')
  obtain ⟨B, e, hB⟩ := this
  exact ⟨B, e, hnext s hs B hB⟩

theorem hesLoop_rest (d : Dims) (A : Approx K) (cb : Cbs d K) (o : Obj d K) (var : ℕ → K) (visit : ℕ → ℕ → (ℕ → ℕ → K) → List (Op K))
    (H : Csc K) (L : ℕ → Dual d.M (Dual d.M K)) (hw : ∀ k < d.NN, ∀ old, cb.lagAD2 (node d var k) (o.time k) old = L k) :
    (hesLoop d A cb o var visit H).1 = quad d A (tScale d o) (fun k => (L k).val.val) ∧
    (∀ c < d.VAR, (hesLoop d A cb o var visit H).2.1 c = quad d A (tScale d o) fun k => scatter d k (derAt (L k).val) c) ∧
    ∀ r j, (hesLoop d A cb o var visit H).2.2.2.1 r j
      = ∑ s ∈ Finset.range d.S, ∑ k ∈ Finset.range (d.N + 1), hesAt d A o L s k (d.NX + d.NU + r) (d.NX + d.NU + j) := by
  let f : ℕ → ℕ → HesState d K → HesState d K := fun s k st =>
    let a := cb.lagAD2 (node d var (k + s * d.N)) (o.time (k + s * d.N)) st.2.2.2.2
    let hes : ℕ → ℕ → K := fun r i => tScale d o * A.w k * hesOf a r i
    (st.1 + tScale d o * A.w k * a.val.val, addNode d st.2.1 (k + s * d.N) (tScale d o * A.w k) (derAt a.val),
      st.2.2.1.bind (runOps d.VAR (visit s k hes)),
      fun r j => st.2.2.2.1 r j + hes (d.NX + d.NU + r) (d.NX + d.NU + j), a)
  let s0 : HesState d K := ((0 : K), (fun _ => (0 : K)), some H, (fun _ _ => (0 : K)), clearVal o.ad2Cost)
  have e : hesLoop d A cb o var visit H = loop d.S (fun s st => loop (d.N + 1) (f s) st) s0 := rfl
  rw [e]
  refine ⟨?_, fun c hc => ?_, fun r j => ?_⟩
  · rw [double_sum (fun st : HesState d K => st.1) f (fun s j => tScale d o * A.w j * (L (s * d.N + j)).val.val) d.S (d.N + 1) s0
      (fun i hi k hk s => by
        show s.1 + _ * (cb.lagAD2 _ _ _).val.val = _
        rw [hw _ (quad_node_lt d hi hk), Nat.add_comm k])]
    simp only [s0, zero_add]; rfl
  · rw [double_sum (fun st : HesState d K => st.2.1 c) f
      (fun s j => tScale d o * A.w j * scatter d (s * d.N + j) (derAt (L (s * d.N + j)).val) c) d.S (d.N + 1) s0 (fun i hi k hk s => by
        show addNode d _ _ _ _ _ = _
        rw [addNode_apply d _ (quad_node_lt d hi hk) _ _ hc, hw _ (quad_node_lt d hi hk), Nat.add_comm k])]
    simp only [s0, zero_add]; rfl
  · rw [double_sum (fun st : HesState d K => st.2.2.2.1 r j) f (fun s k => hesAt d A o L s k (d.NX + d.NU + r) (d.NX + d.NU + j)) d.S (d.N + 1) s0
      (fun i hi k hk s => by
        show s.2.2.2.1 r j + _ * hesOf (cb.lagAD2 _ _ _) _ _ = _
        rw [hw _ (quad_node_lt d hi hk)]; rfl)]
    simp only [s0, zero_add]

/-- What a visit contributes on the first call. -/
def firstLoc (d : Dims) (s k : ℕ) (h : ℕ → ℕ → K) : ℕ → ℕ → K := if 0 < s ∧ k = 0 then addH d h else insH d h

theorem firstLoc_pp (d : Dims) (s k : ℕ) (h : ℕ → ℕ → K) (b a : ℕ) :
    firstLoc d s k h (d.NX + d.NU + b) (d.NX + d.NU + a) = h (d.NX + d.NU + b) (d.NX + d.NU + a) := by
  unfold firstLoc
  split_ifs
  · unfold addH; rw [if_neg (by omega)]
  · unfold insH; rw [if_neg (by omega), if_neg (by omega)]

/-- The conditions under which the first call passes its range assertions. -/
abbrev FirstOk (d : Dims) : Prop :=
  ¬ ((0 < d.NX ∧ d.NU < d.NP) ∨ (0 < d.NP ∧ d.NX + d.NP < d.NU)) ∧ ¬ (0 < d.NU ∧ (d.NX < d.NU ∨ d.VAR < d.VARX + d.NX))

/-- The Hessian that the first call leaves. -/
def firstHes (d : Dims) (A : Approx K) (o : Obj d K) (L : ℕ → Dual d.M (Dual d.M K)) (m : Dual d.M (Dual d.M K)) (r c : ℕ) : K :=
  (∑ s ∈ Finset.range d.S, ∑ k ∈ Finset.range (d.N + 1), scatter2 d (k + s * d.N) (firstLoc d s k (hesAt d A o L s k)) r c)
    + scatter2 d 0 (hesOf m) r c

/-- The Hessian that later calls leave. -/
def laterHes (d : Dims) (A : Approx K) (o : Obj d K) (L : ℕ → Dual d.M (Dual d.M K)) (m : Dual d.M (Dual d.M K)) (r c : ℕ) : K :=
  quad d A (tScale d o) (fun k => scatter2 d k (hesOf (L k)) r c) + scatter2 d 0 (hesOf m) r c

theorem laterHes_eq (d : Dims) (A : Approx K) (o : Obj d K) (L : ℕ → Dual d.M (Dual d.M K)) (m : Dual d.M (Dual d.M K)) (r c : ℕ) :
    laterHes d A o L m r c
      = (∑ s ∈ Finset.range d.S, ∑ k ∈ Finset.range (d.N + 1), scatter2 d (k + s * d.N) (hesAt d A o L s k) r c) + scatter2 d 0 (hesOf m) r c := by
  unfold laterHes quad
  congr 1
  refine Finset.sum_congr rfl fun s _ => Finset.sum_congr rfl fun k _ => ?_
  unfold hesAt
  rw [scatter2_smul, Nat.add_comm k]

theorem nodesAt_end (d : Dims) (hS : 1 ≤ d.S) : nodesAt d d.S 0 = d.NN := by
  unfold nodesAt; rw [if_pos rfl, if_neg (by omega)]; rfl

/-- A first call. -/
theorem costHesFresh_form (d : Dims) (A : Approx K) (cb : Cbs d K) (o : Obj d K) (var : ℕ → K) (H : Csc K) (L : ℕ → Dual d.M (Dual d.M K))
    (hS : 1 ≤ d.S) (hN : 1 ≤ d.N) (hok : FirstOk d) (hw : ∀ k < d.NN, ∀ old, cb.lagAD2 (node d var k) (o.time k) old = L k) :
    ∃ J g H' a, costHesFresh d A cb o var H = some (J, g, H', { o with ad2Cost := a }) ∧
      J = quad d A (tScale d o) (fun k => (L k).val.val) + (cb.mayerAD2 (node d var 0) (o.time 0) (zero2 d.M)).val.val ∧
      (∀ c < d.VAR, g c = quad d A (tScale d o) (fun k => scatter d k (derAt (L k).val) c)
        + scatter d 0 (derAt (cb.mayerAD2 (node d var 0) (o.time 0) (zero2 d.M)).val) c) ∧
      HesForm d H' (firstHes d A o L (cb.mayerAD2 (node d var 0) (o.time 0) (zero2 d.M))) := by
  have h0 : 0 < d.NN := by unfold Dims.NN; omega
  set visit : ℕ → ℕ → (ℕ → ℕ → K) → List (Op K) :=
    fun s k h => if 0 < s ∧ k = 0 then hesAdd d (k + s * d.N) h else hesIns d (k + s * d.N) h with hvis
  set G : ℕ → ℕ → ℕ → ℕ → K := fun s k => firstLoc d s k (hesAt d A o L s k) with hG
  obtain ⟨B, eB, hsB, hB⟩ := hesLoop_matrix d A cb o var visit (H.reserve (hesNnz d)) L hw
    (fun s k B => HesStart d B.start ∧ Holds B d.VAR d.VAR (nodePat d (nodesAt d s k) false) (visited d G s k))
    ⟨fun c _ => rfl, (holds_reserve H d.VAR d.VAR (hesNnz d) (visited d G 0 0)).congrP fun c hc r => by
      symm
      rw [Bool.eq_false_iff]
      intro h
      rcases (nodePat_iff d).1 h with ⟨t, ht, _⟩ | ⟨hf, _⟩
      · unfold nodesAt at ht; simp at ht
      · exact absurd hf (by decide)⟩
    (fun s hs k hk B hB => by
      obtain ⟨hsB, hB⟩ := hB
      have hq := quad_node_lt d hs hk
      by_cases hj : 0 < s ∧ k = 0
      · obtain ⟨hs0, rfl⟩ := hj
        obtain ⟨n1, n2⟩ := nodesAt_again d hs0
        rw [n1] at hB
        have hm := mul_step (n := d.N) hs
        obtain ⟨B', e, s', hB'⟩ := add_fresh d (hesAt d A o L s 0) (k := s * d.N) (by unfold Dims.NN; omega) (by
          by_cases hu : 0 < d.NU
          · by_contra hc
            exact hok.2 ⟨hu, Or.inl (by omega)⟩
          · omega) hsB hB
        refine ⟨B', ?_, by rw [s']; exact hsB, ?_⟩
        · rw [hvis]; dsimp only; rw [if_pos ⟨hs0, rfl⟩, Nat.zero_add]; exact e
        · rw [show (0 : ℕ) + 1 = 1 from rfl, n2]
          refine hB'.congr fun c _ r _ _ => ?_
          rw [visited_succ, Nat.zero_add, hG]
          dsimp only
          unfold firstLoc
          rw [if_pos ⟨hs0, rfl⟩]
      · obtain ⟨n1, n2⟩ := nodesAt_first d hj
        rw [n1] at hB
        obtain ⟨B', e, s', hB'⟩ := ins_fresh d (hesAt d A o L s k) hq hsB hB fun i hi j hj' hij => visited_zero d G hs hk hj hi hj' hij
        refine ⟨B', ?_, by rw [s']; exact hsB, ?_⟩
        · rw [hvis]; dsimp only; rw [if_neg hj]; exact e
        · rw [n2]
          refine hB'.congr fun c _ r _ _ => ?_
          rw [visited_succ, hG]
          dsimp only
          unfold firstLoc
          rw [if_neg hj])
    (fun s hs B hB => by
      rw [nodesAt_next] at hB
      exact ⟨hB.1, hB.2.congr fun c _ r _ _ => visited_next d G s r c⟩)
  rw [nodesAt_end d hS] at hB
  obtain ⟨rJ, rg, rp⟩ := hesLoop_rest d A cb o var visit (H.reserve (hesNnz d)) L hw
  obtain ⟨B1, e1, s1, h1⟩ := ppIns_fresh d (hesLoop d A cb o var visit (H.reserve (hesNnz d))).2.2.2.1 hsB hB (visited d G d.S 0) (fun c r _ => rfl)
    (fun b hb a ha => by
      rw [rp]
      unfold visited
      rw [Finset.sum_range_zero, add_zero]
      refine Finset.sum_congr rfl fun s hs => Finset.sum_congr rfl fun k hk => ?_
      rw [scatter2_par d (quad_node_lt d (Finset.mem_range.1 hs) (Finset.mem_range.1 hk)) ha hb, hG]
      exact firstLoc_pp d s k _ b a)
  obtain ⟨B2, e2, s2, h2⟩ := mayerAdd_full d (hesOf (cb.mayerAD2 (node d var 0) (o.time 0) (zero2 d.M))) (by rw [s1]; exact hsB) h1
  refine ⟨(hesLoop d A cb o var visit (H.reserve (hesNnz d))).1 + (cb.mayerAD2 (node d var 0) (o.time 0) (zero2 d.M)).val.val,
    addNode d (hesLoop d A cb o var visit (H.reserve (hesNnz d))).2.1 0 1 (derAt (cb.mayerAD2 (node d var 0) (o.time 0) (zero2 d.M)).val), B2,
    (hesLoop d A cb o var visit (H.reserve (hesNnz d))).2.2.2.2, ?_, ?_, ?_, by rw [s2, s1]; exact hsB, ?_⟩
  · unfold costHesFresh
    rw [if_neg hok.1]
    dsimp only
    rw [if_neg hok.2, show hesLoop d A cb o var (fun s k h => if 0 < s ∧ k = 0 then hesAdd d (k + s * d.N) h else hesIns d (k + s * d.N) h)
      (H.reserve (hesNnz d)) = hesLoop d A cb o var visit (H.reserve (hesNnz d)) from rfl, eB]
    show Option.map _ (runOps _ (_ ++ _) _) = _
    rw [runOps_append, e1]
    show Option.map _ (runOps _ _ _) = _
    rw [e2]
    rfl
  · rw [rJ]
  · intro c hc
    rw [addNode_apply d _ h0 _ _ hc, rg c hc, one_mul]
  · refine h2.congr fun c _ r _ _ => ?_
    unfold visited firstHes
    rw [Finset.sum_range_zero, add_zero]

/-- A later call: whatever the entries were, the result is the right Hessian. -/
theorem costHesUpdate_form (d : Dims) (A : Approx K) (cb : Cbs d K) (o : Obj d K) (var : ℕ → K) (H : Csc K) (M0 : ℕ → ℕ → K) (hH : HesForm d H M0)
    (L : ℕ → Dual d.M (Dual d.M K)) (hS : 1 ≤ d.S) (hok : ¬ (0 < d.NU ∧ (d.NX < d.NU ∨ d.VAR < d.VARX + d.NX)))
    (hw : ∀ k < d.NN, ∀ old, cb.lagAD2 (node d var k) (o.time k) old = L k) :
    ∃ J g H' a, costHesUpdate d A cb o var H = some (J, g, H', { o with ad2Cost := a }) ∧
      J = quad d A (tScale d o) (fun k => (L k).val.val) + (cb.mayerAD2 (node d var 0) (o.time 0) (zero2 d.M)).val.val ∧
      (∀ c < d.VAR, g c = quad d A (tScale d o) (fun k => scatter d k (derAt (L k).val) c)
        + scatter d 0 (derAt (cb.mayerAD2 (node d var 0) (o.time 0) (zero2 d.M)).val) c) ∧
      HesForm d H' (laterHes d A o L (cb.mayerAD2 (node d var 0) (o.time 0) (zero2 d.M))) := by
  have h0 : 0 < d.NN := by unfold Dims.NN; omega
  set visit : ℕ → ℕ → (ℕ → ℕ → K) → List (Op K) :=
    fun s k h => if 0 < s ∧ k = 0 then hesAdd d (k + s * d.N) h else hesPut d (k + s * d.N) h with hvis
  set G : ℕ → ℕ → ℕ → ℕ → K := hesAt d A o L with hG
  obtain ⟨B, eB, hsB, M, hB, hMv⟩ := hesLoop_matrix d A cb o var visit H L hw
    (fun s k B => HesStart d B.start ∧ ∃ M, Holds B d.VAR d.VAR (hesPat d) M ∧ ∀ c r, nodePat d (nodesAt d s k) false c r = true →
      M r c = visited d G s k r c)
    ⟨hH.start, M0, hH.holds, fun c r h => by
      rcases (nodePat_iff d).1 h with ⟨t, ht, _⟩ | ⟨hf, _⟩
      · unfold nodesAt at ht; simp at ht
      · exact absurd hf (by decide)⟩
    (fun s hs k hk B hB => by
      obtain ⟨hsB, M, hB, hMv⟩ := hB
      have hq := quad_node_lt d hs hk
      by_cases hj : 0 < s ∧ k = 0
      · obtain ⟨hs0, rfl⟩ := hj
        obtain ⟨n1, n2⟩ := nodesAt_again d hs0
        obtain ⟨B', e, s', hB'⟩ := hesAdd_full d (hesAt d A o L s 0) hq hsB hB
        refine ⟨B', ?_, by rw [s']; exact hsB, _, hB', fun c r hp => ?_⟩
        · rw [hvis]; dsimp only; rw [if_pos ⟨hs0, rfl⟩]; exact e
        · rw [show (0 : ℕ) + 1 = 1 from rfl, n2, ← n1] at hp
          rw [hMv c r hp, show (1 : ℕ) = 0 + 1 from rfl, visited_succ, hG]
          congr 1
          rcases (nodePat_iff d).1 hp with ⟨t, ht, i, hi, j, hj, hij, rfl, rfl⟩ | ⟨hf, _⟩
          · have htN : t < d.NN := by
              rw [n1] at ht
              have := mul_step (n := d.N) hs
              unfold Dims.NN; omega
            rw [scatter2_entry d hq htN hi hj hij, scatter2_entry d hq htN hi hj hij]
            unfold noPP
            rw [if_neg (c := d.NX + d.NU ≤ i ∧ _) (by omega)]
          · exact absurd hf (by decide)
      · obtain ⟨n1, n2⟩ := nodesAt_first d hj
        obtain ⟨B', e, s', hB'⟩ := put_full d (hesAt d A o L s k) hq hsB hB
        refine ⟨B', ?_, by rw [s']; exact hsB, _, hB', fun c r hp => ?_⟩
        · rw [hvis]; dsimp only; rw [if_neg hj]; exact e
        · rw [n2] at hp
          rw [n1] at hMv
          rw [visited_succ]
          rcases (nodePat_iff d).1 hp with ⟨t, ht, i, hi, j, hj', hij, rfl, rfl⟩ | ⟨hf, _⟩
          · rcases Nat.lt_or_ge t (k + s * d.N) with hlt | hge
            · have hold : nodePat d (k + s * d.N) false (nodeIdx d t j) (nodeIdx d t i) = true :=
                (nodePat_iff d).2 (Or.inl ⟨t, hlt, i, hi, j, hj', hij, rfl, rfl⟩)
              have hno : ¬ ∃ i' < d.M, ∃ j' < d.M, (i' < d.NX + d.NU ∨ j' < d.NX + d.NU) ∧ nodeIdx d t i = nodeIdx d (k + s * d.N) i' ∧
                  nodeIdx d t j = nodeIdx d (k + s * d.N) j' := by
                rintro ⟨i', hi', j', hj'', hij', e1, e2⟩
                have := nodePat_new d hq hi' hj'' hij'
                rw [← e1, ← e2, hold] at this
                exact absurd this (by decide)
              unfold putM
              rw [if_neg hno, hMv _ _ hold, scatter2_early d hq le_rfl hold, add_zero]
            · have : t = k + s * d.N := by omega
              subst this
              rw [putM_at d _ M hq hi hj' hij, visited_zero d G hs hk hj hi hj' hij, zero_add, scatter2_entry d hq hq hi hj' hij, if_pos rfl]
          · exact absurd hf (by decide))
    (fun s hs B hB => by
      rw [nodesAt_next] at hB
      obtain ⟨h1, M, h2, h3⟩ := hB
      exact ⟨h1, M, h2, fun c r hp => by rw [h3 c r hp, visited_next]⟩)
  rw [nodesAt_end d hS] at hMv
  obtain ⟨rJ, rg, rp⟩ := hesLoop_rest d A cb o var visit H L hw
  obtain ⟨B1, e1, s1, h1⟩ := ppPut_full d (hesLoop d A cb o var visit H).2.2.2.1 hsB hB (visited d G d.S 0) (fun c r hp => (hMv c r hp).symm)
    (fun b hb a ha => by
      rw [rp]
      unfold visited
      rw [Finset.sum_range_zero, add_zero]
      refine Finset.sum_congr rfl fun s hs => Finset.sum_congr rfl fun k hk => ?_
      rw [scatter2_par d (quad_node_lt d (Finset.mem_range.1 hs) (Finset.mem_range.1 hk)) ha hb])
  obtain ⟨B2, e2, s2, h2⟩ := hesCols_full d (hesOf (cb.mayerAD2 (node d var 0) (o.time 0) (zero2 d.M))) h0 (by rw [s1]; exact hsB) h1
  refine ⟨(hesLoop d A cb o var visit H).1 + (cb.mayerAD2 (node d var 0) (o.time 0) (zero2 d.M)).val.val,
    addNode d (hesLoop d A cb o var visit H).2.1 0 1 (derAt (cb.mayerAD2 (node d var 0) (o.time 0) (zero2 d.M)).val), B2,
    (hesLoop d A cb o var visit H).2.2.2.2, ?_, ?_, ?_, by rw [s2, s1]; exact hsB, ?_⟩
  · unfold costHesUpdate
    dsimp only
    rw [if_neg hok, show hesLoop d A cb o var (fun s k h => if 0 < s ∧ k = 0 then hesAdd d (k + s * d.N) h else hesPut d (k + s * d.N) h) H
      = hesLoop d A cb o var visit H from rfl, eB]
    show Option.map _ (runOps _ (_ ++ _) _) = _
    rw [runOps_append, e1]
    show Option.map _ (runOps _ _ _) = _
    rw [e2]
    rfl
  · rw [rJ]
  · intro c hc
    rw [addNode_apply d _ h0 _ _ hc, rg c hc, one_mul]
  · refine h2.congr fun c _ r _ _ => ?_
    rw [laterHes_eq]
    unfold visited
    rw [Finset.sum_range_zero, add_zero]

end PolyMPC.Ocp
