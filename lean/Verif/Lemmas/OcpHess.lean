import Verif.Lemmas.Ocp

/-! # Closed forms of the dense Hessians -/

namespace PolyMPC.Ocp
open AD Spec

set_option linter.unusedSectionVars false
set_option linter.unusedVariables false

variable {K : Type} [Field K]

theorem addBlock_eq (H : ℕ → ℕ → K) (r0 c0 nr nc : ℕ) (B : ℕ → ℕ → K) (r c : ℕ) :
    addBlock H r0 c0 nr nc B r c = H r c + if (r0 ≤ r ∧ r < r0 + nr) ∧ c0 ≤ c ∧ c < c0 + nc then B (r - r0) (c - c0) else 0 := by
  unfold addBlock; split_ifs <;> simp

/-- What the terminal part of the dense Hessian adds beyond (or short of) the right contribution. -/
def mayerErr (d : Dims) (h : ℕ → ℕ → K) (r c : ℕ) : K :=
  if d.VARX + d.VARU ≤ r ∧ r < d.VAR then
    (if c < d.NP then h (d.NX + d.NU + (r - (d.VARX + d.VARU))) c else 0)
    - (if d.VARX + d.VARU ≤ c ∧ c < d.VAR then h (d.NX + d.NU + (r - (d.VARX + d.VARU))) (d.NX + d.NU + (c - (d.VARX + d.VARU))) else 0)
  else 0

theorem addMayer2_apply (d : Dims) (H : ℕ → ℕ → K) (h : ℕ → ℕ → K) {r c : ℕ} (hr : r < d.VAR) (hc : c < d.VAR) :
    addMayer2 d H h r c = H r c + scatter2 d 0 h r c + mayerErr d h r c := by
  have h0 : 0 < d.NN := by unfold Dims.NN; omega
  have e := addNode2_apply d H h0 1 h hr hc
  rw [one_mul] at e
  rw [← e]
  have eV : d.VAR - d.NP = d.VARX + d.VARU := by unfold Dims.VAR; omega
  have eV' : d.VARX + d.VARU + d.NP = d.VAR := rfl
  unfold addMayer2 addNode2 mayerErr
  simp only [addBlock_eq, eV, eV', Nat.zero_mul, Nat.zero_add, Nat.sub_zero, Nat.zero_le, true_and, one_mul]
  by_cases hp : d.VARX + d.VARU ≤ r ∧ r < d.VAR
  · simp only [hp, true_and, and_self, if_true]
    by_cases hq : d.VARX + d.VARU ≤ c ∧ c < d.VAR
    · simp only [hq, and_self, if_true]; ring
    · simp only [hq, if_false]; ring
  · simp only [hp, false_and, if_false]; ring

/-- The second-order evaluation of the costs. -/
theorem costHessian_closed (d : Dims) (A : Approx K) (cb : Cbs d K) (o : Obj d K) (var : ℕ → K) (L : ℕ → Dual d.M (Dual d.M K))
    (hw : ∀ k < d.NN, ∀ old, cb.lagAD2 (node d var k) (o.time k) old = L k) (hd : ¬ (0 < d.NU ∧ (d.NX < d.NU ∨ d.VAR < d.VARX + d.NX))) :
    ∃ J g H o', costGradientHessian d A cb o var = some (J, g, H, o') ∧
      o'.tStart = o.tStart ∧ o'.tStop = o.tStop ∧ o'.time = o.time ∧ o'.adY = o.adY ∧ o'.adG = o.adG ∧ o'.adCost = o.adCost ∧
      J = quad d A (tScale d o) (fun k => (L k).val.val) + (cb.mayerAD2 (node d var 0) (o.time 0) (zero2 d.M)).val.val ∧
      (∀ c < d.VAR, g c = quad d A (tScale d o) (fun k => scatter d k (derAt (L k).val) c)
        + scatter d 0 (derAt (cb.mayerAD2 (node d var 0) (o.time 0) (zero2 d.M)).val) c) ∧
      ∀ r < d.VAR, ∀ c < d.VAR, H r c = quad d A (tScale d o) (fun k => scatter2 d k (hesOf (L k)) r c)
        + scatter2 d 0 (hesOf (cb.mayerAD2 (node d var 0) (o.time 0) (zero2 d.M))) r c
        + mayerErr d (hesOf (cb.mayerAD2 (node d var 0) (o.time 0) (zero2 d.M))) r c := by
  have h0 : 0 < d.NN := by unfold Dims.NN; omega
  let f : ℕ → ℕ → K × (ℕ → K) × (ℕ → ℕ → K) × Dual d.M (Dual d.M K) → K × (ℕ → K) × (ℕ → ℕ → K) × Dual d.M (Dual d.M K) :=
    fun s k st =>
      (st.1 + tScale d o * A.w k * (cb.lagAD2 (node d var (k + s * d.N)) (o.time (k + s * d.N)) st.2.2.2).val.val,
       addNode d st.2.1 (k + s * d.N) (tScale d o * A.w k) (derAt (cb.lagAD2 (node d var (k + s * d.N)) (o.time (k + s * d.N)) st.2.2.2).val),
       addNode2 d st.2.2.1 (k + s * d.N) (tScale d o * A.w k) (hesOf (cb.lagAD2 (node d var (k + s * d.N)) (o.time (k + s * d.N)) st.2.2.2)),
       cb.lagAD2 (node d var (k + s * d.N)) (o.time (k + s * d.N)) st.2.2.2)
  let s0 : K × (ℕ → K) × (ℕ → ℕ → K) × Dual d.M (Dual d.M K) := ((0 : K), (fun _ => (0 : K)), (fun _ _ => (0 : K)), clearVal o.ad2Cost)
  have hJ := double_sum (fun st => st.1) f (fun s j => tScale d o * A.w j * (L (s * d.N + j)).val.val) d.S (d.N + 1) s0
    (fun i hi k hk s => by
      show s.1 + _ * (cb.lagAD2 _ _ _).val.val = _
      rw [hw _ (quad_node_lt d hi hk), Nat.add_comm k])
  have hg : ∀ c < d.VAR, _ := fun c hc => double_sum (fun st => st.2.1 c) f (fun s j => tScale d o * A.w j * scatter d (s * d.N + j) (derAt (L (s * d.N + j)).val) c)
    d.S (d.N + 1) s0 (fun i hi k hk s => by
      show addNode d _ _ _ _ _ = _
      rw [addNode_apply d _ (quad_node_lt d hi hk) _ _ hc, hw _ (quad_node_lt d hi hk), Nat.add_comm k])
  have hH : ∀ r < d.VAR, ∀ c < d.VAR, _ := fun r hr c hc => double_sum (fun st => st.2.2.1 r c) f
    (fun s j => tScale d o * A.w j * scatter2 d (s * d.N + j) (hesOf (L (s * d.N + j))) r c)
    d.S (d.N + 1) s0 (fun i hi k hk s => by
      show addNode2 d _ _ _ _ _ _ = _
      rw [addNode2_apply d _ (quad_node_lt d hi hk) _ _ hr hc, hw _ (quad_node_lt d hi hk), Nat.add_comm k])
  have e : costGradientHessian d A cb o var = some
      ((loop d.S (fun s st => loop (d.N + 1) (f s) st) s0).1 + (cb.mayerAD2 (node d var 0) (o.time 0) (zero2 d.M)).val.val,
       addNode d (loop d.S (fun s st => loop (d.N + 1) (f s) st) s0).2.1 0 1 (derAt (cb.mayerAD2 (node d var 0) (o.time 0) (zero2 d.M)).val),
       addMayer2 d (loop d.S (fun s st => loop (d.N + 1) (f s) st) s0).2.2.1 (hesOf (cb.mayerAD2 (node d var 0) (o.time 0) (zero2 d.M))),
       { o with ad2Cost := (loop d.S (fun s st => loop (d.N + 1) (f s) st) s0).2.2.2 }) := by
    unfold costGradientHessian
    simp only [if_neg hd]
    rfl
  refine ⟨_, _, _, _, e, rfl, rfl, rfl, rfl, rfl, rfl, ?_, fun c hc => ?_, fun r hr c hc => ?_⟩
  · rw [hJ]; simp only [s0, zero_add]; rfl
  · rw [addNode_apply d _ h0 _ _ hc, hg c hc, one_mul]; simp only [s0, zero_add]; rfl
  · rw [addMayer2_apply d _ _ hr hc, hH r hr c hc]; simp only [s0, zero_add]; rfl

theorem scatter_add (d : Dims) (k : ℕ) (f g : ℕ → K) (c : ℕ) : scatter d k (fun i => f i + g i) c = scatter d k f c + scatter d k g c := by
  unfold scatter
  rw [← Finset.sum_add_distrib]
  exact Finset.sum_congr rfl fun i _ => by split_ifs <;> simp

theorem scatter_smul (d : Dims) (k : ℕ) (a : K) (f : ℕ → K) (c : ℕ) : scatter d k (fun i => a * f i) c = a * scatter d k f c := by
  unfold scatter
  rw [Finset.mul_sum]
  exact Finset.sum_congr rfl fun i _ => by split_ifs <;> simp

theorem scatter_zero (d : Dims) (k c : ℕ) : scatter d k (fun _ => (0 : K)) c = 0 :=
  Finset.sum_eq_zero fun i _ => by split_ifs <;> rfl

theorem scatter_sum (d : Dims) (k : ℕ) (n : ℕ) (f : ℕ → ℕ → K) (c : ℕ) :
    scatter d k (fun i => ∑ j ∈ Finset.range n, f j i) c = ∑ j ∈ Finset.range n, scatter d k (f j) c := by
  induction n with
  | zero => simpa using scatter_zero d k c
  | succ n ih => simp only [Finset.sum_range_succ, scatter_add, ih]

theorem scatter2_add (d : Dims) (k : ℕ) (f g : ℕ → ℕ → K) (r c : ℕ) :
    scatter2 d k (fun i j => f i j + g i j) r c = scatter2 d k f r c + scatter2 d k g r c := by
  unfold scatter2; simp only [scatter_add]

theorem scatter2_smul (d : Dims) (k : ℕ) (a : K) (f : ℕ → ℕ → K) (r c : ℕ) :
    scatter2 d k (fun i j => a * f i j) r c = a * scatter2 d k f r c := by
  unfold scatter2; simp only [scatter_smul]

theorem scatter2_sum (d : Dims) (k n : ℕ) (f : ℕ → ℕ → ℕ → K) (r c : ℕ) :
    scatter2 d k (fun i j => ∑ l ∈ Finset.range n, f l i j) r c = ∑ l ∈ Finset.range n, scatter2 d k (f l) r c := by
  unfold scatter2; simp only [scatter_sum]

/-- The node Hessian that the loop over the constraints accumulates. -/
theorem loop_acc (n : ℕ) (v : ℕ → ℕ → ℕ → K) (h : ℕ → ℕ → K) (r i : ℕ) :
    loop n (fun n h r i => h r i + v n r i) h r i = h r i + ∑ l ∈ Finset.range n, v l r i := by
  induction n with
  | zero => simp [loop]
  | succ n ih => rw [loop_succ, ih, Finset.sum_range_succ]; ring

theorem constraintHessian_closed (d : Dims) (cb : Cbs d K) (o : Obj d K) (var lam : ℕ → K) (xd0 g0 : ℕ → Dual d.M (Dual d.M K))
    (H0 : ℕ → ℕ → K) (F G : ℕ → ℕ → Dual d.M (Dual d.M K))
    (hF : ∀ k < d.NN, ∀ old, ∀ i < d.NX, cb.dynAD2 (node d var k) (o.time k) old i = F k i)
    (hG : ∀ k < d.NN, ∀ old, ∀ i < d.NG, cb.ineqAD2 (node d var k) (o.time k) old i = G k i)
    {r c : ℕ} (hr : r < d.VAR) (hc : c < d.VAR) :
    addConstraintHessian d cb o var lam xd0 g0 H0 r c = H0 r c + ∑ k ∈ Finset.range d.NN,
      (∑ n ∈ Finset.range d.NX, -lam (n + k * d.NX) * tScale d o * scatter2 d k (hesOf (F k n)) r c
        + ∑ n ∈ Finset.range d.NG, lam (n + k * d.NG + d.NEQ) * scatter2 d k (hesOf (G k n)) r c) := by
  unfold addConstraintHessian
  refine loop_inv (P := fun m (st : (ℕ → Dual d.M (Dual d.M K)) × (ℕ → Dual d.M (Dual d.M K)) × (ℕ → ℕ → K)) => m ≤ d.NN →
    st.2.2 r c = H0 r c + ∑ k ∈ Finset.range m,
      (∑ n ∈ Finset.range d.NX, -lam (n + k * d.NX) * tScale d o * scatter2 d k (hesOf (F k n)) r c
        + ∑ n ∈ Finset.range d.NG, lam (n + k * d.NG + d.NEQ) * scatter2 d k (hesOf (G k n)) r c)) ?_ ?_ le_rfl
  · intro _; simp
  · intro k hk st hst _
    dsimp only
    rw [addNode2_apply d _ hk _ _ hr hc, hst (by omega), Finset.sum_range_succ, one_mul, add_assoc]
    congr 2
    have e : (loop d.NG (fun n h r i => h r i + lam (n + k * d.NG + d.NEQ) * hesOf (cb.ineqAD2 (node d var k) (o.time k) st.2.1 n) r i)
        (loop d.NX (fun n h r i => h r i + -lam (n + k * d.NX) * tScale d o * hesOf (cb.dynAD2 (node d var k) (o.time k) st.1 n) r i) fun _ _ => 0))
        = fun r i => ∑ n ∈ Finset.range d.NX, -lam (n + k * d.NX) * tScale d o * hesOf (F k n) r i
          + ∑ n ∈ Finset.range d.NG, lam (n + k * d.NG + d.NEQ) * hesOf (G k n) r i := by
      funext r i
      rw [loop_acc, loop_acc, zero_add]
      congr 1
      · exact Finset.sum_congr rfl fun n hn => by rw [hF k hk _ n (Finset.mem_range.1 hn)]
      · exact Finset.sum_congr rfl fun n hn => by rw [hG k hk _ n (Finset.mem_range.1 hn)]
    rw [e, scatter2_add, scatter2_sum, scatter2_sum]
    simp only [scatter2_smul]

theorem sum_blocks (n m : ℕ) (f : ℕ → K) : ∑ i ∈ Finset.range (n * m), f i = ∑ k ∈ Finset.range m, ∑ a ∈ Finset.range n, f (k * n + a) := by
  induction m with
  | zero => simp
  | succ m ih =>
    rw [Nat.mul_succ, Finset.sum_range_add, ih, Finset.sum_range_succ, Nat.mul_comm n m]

end PolyMPC.Ocp
