import Verif.Lemmas.OcpSparseBfgs
import Verif.Lemmas.OcpSparseCon

/-! # Sparse second derivatives: histories of calls, and the Lagrangian -/

namespace PolyMPC.Ocp
open AD Sparse Sparse.Csc

set_option linter.unusedSectionVars false
set_option linter.unusedVariables false

section Field
variable {K : Type} [Field K] [DecidableEq K]

theorem hes_nnz_pos (d : Dims) (hX : 0 < d.NX) : 0 < sumNnz d (hesNnz d) := by
  have h0 : 0 < d.NN := by unfold Dims.NN; omega
  have hv : 0 < d.VARX := by have := xIdx_lt d h0 hX; omega
  unfold sumNnz
  refine lt_of_lt_of_le ?_ (Finset.single_le_sum (f := hesNnz d) (fun _ _ => Nat.zero_le _) (Finset.mem_range.2 (show 0 < d.VAR by
    unfold Dims.VAR; omega)))
  rw [hesNnz_eq d (by unfold Dims.VAR; omega), if_pos (by omega)]; omega

theorem HesForm.nonZeros {d : Dims} {H : Csc K} {M : ℕ → ℕ → K} (h : HesForm d H M) : H.nonZeros d.VAR = sumNnz d (hesNnz d) := by
  rw [h.holds.nonZeros]
  exact Finset.sum_congr rfl fun c hc => rank_hesPat d (Finset.mem_range.1 hc)

theorem HesForm.not_empty {d : Dims} (hX : 0 < d.NX) {H : Csc K} {M : ℕ → ℕ → K} (h : HesForm d H M) : ¬ Empty H := fun hE => by
  have := hes_nnz_pos d hX
  rw [← h.nonZeros, hE.nonZeros] at this
  omega

/-- The contribution of a node is the same whatever is added to. -/
theorem addConstraint_add (d : Dims) (cb : Cbs d K) (o : Obj d K) (var lam : ℕ → K) (xd0 g0 : ℕ → Dual d.M (Dual d.M K)) (H0 : ℕ → ℕ → K)
    {r c : ℕ} (hr : r < d.VAR) (hc : c < d.VAR) :
    addConstraintHessian d cb o var lam xd0 g0 H0 r c = H0 r c + addConstraintHessian d cb o var lam xd0 g0 (fun _ _ => 0) r c := by
  unfold addConstraintHessian
  have key : ∀ n ≤ d.NN, ∀ (f : ℕ → (ℕ → Dual d.M (Dual d.M K)) × (ℕ → Dual d.M (Dual d.M K)) × (ℕ → ℕ → K) →
        (ℕ → Dual d.M (Dual d.M K)) × (ℕ → Dual d.M (Dual d.M K)) × (ℕ → ℕ → K)) (hes : ℕ → _ → _ → ℕ → ℕ → K) (xdf gf : ℕ → _ → _ → ℕ → Dual d.M (Dual d.M K)),
      (∀ k st, f k st = (xdf k st.1 st.2.1, gf k st.1 st.2.1, addNode2 d st.2.2 k 1 (hes k st.1 st.2.1))) →
      (loop n f (xd0, g0, H0)).1 = (loop n f (xd0, g0, fun _ _ => 0)).1 ∧ (loop n f (xd0, g0, H0)).2.1 = (loop n f (xd0, g0, fun _ _ => 0)).2.1 ∧
      (loop n f (xd0, g0, H0)).2.2 r c = H0 r c + (loop n f (xd0, g0, fun _ _ => 0)).2.2 r c := by
    intro n hn f hes xdf gf hf
    induction n with
    | zero => exact ⟨rfl, rfl, by show H0 r c = H0 r c + 0; rw [add_zero]⟩
    | succ n ih =>
      obtain ⟨e1, e2, e3⟩ := ih (by omega)
      rw [loop_succ, loop_succ, hf, hf, e1, e2]
      refine ⟨rfl, rfl, ?_⟩
      dsimp only
      rw [addNode2_apply d _ (by omega) _ _ hr hc, addNode2_apply d _ (by omega) _ _ hr hc, e3, add_assoc]
  exact (key d.NN le_rfl _
    (fun k xd g => loop d.NG (fun n h r i => h r i + lam (n + k * d.NG + d.NEQ) * hesOf (cb.ineqAD2 (node d var k) (o.time k) g n) r i)
      (loop d.NX (fun n h r i => h r i + -lam (n + k * d.NX) * tScale d o * hesOf (cb.dynAD2 (node d var k) (o.time k) xd n) r i) fun _ _ => 0))
    (fun k xd g => cb.dynAD2 (node d var k) (o.time k) xd) (fun k xd g => cb.ineqAD2 (node d var k) (o.time k) g) (fun k st => rfl)).2.2

/-- The constraints contribute nothing outside the pattern. -/
theorem addConstraint_off (d : Dims) (cb : Cbs d K) (o : Obj d K) (var lam : ℕ → K) (xd0 g0 : ℕ → Dual d.M (Dual d.M K))
    {r c : ℕ} (hr : r < d.VAR) (hc : c < d.VAR) (hp : hesPat d c r = false) :
    addConstraintHessian d cb o var lam xd0 g0 (fun _ _ => 0) r c = 0 := by
  unfold addConstraintHessian
  refine loop_inv (P := fun m (st : (ℕ → Dual d.M (Dual d.M K)) × (ℕ → Dual d.M (Dual d.M K)) × (ℕ → ℕ → K)) => st.2.2 r c = 0) rfl ?_
  intro k hk st hst
  dsimp only
  rw [addNode2_apply d _ hk _ _ hr hc, hst, scatter2_miss d hk hp hr hc, mul_zero, add_zero]

/-- The sparse addition of the constraint Hessians follows the dense one. -/
theorem addConstraint_sim (d : Dims) (cb : Cbs d K) (o : Obj d K) (var lam : ℕ → K) (xd0 g0 : ℕ → Dual d.M (Dual d.M K)) {A : Csc K}
    {M : ℕ → ℕ → K} (hA : HesForm d A M) :
    ∃ A', addConstraintHessianSparse d cb o var lam xd0 g0 A = some A' ∧ HesForm d A' (addConstraintHessian d cb o var lam xd0 g0 M) := by
  have key : ∀ n ≤ d.NN, ∀ (fs : ℕ → (ℕ → Dual d.M (Dual d.M K)) × (ℕ → Dual d.M (Dual d.M K)) × Option (Csc K) →
        (ℕ → Dual d.M (Dual d.M K)) × (ℕ → Dual d.M (Dual d.M K)) × Option (Csc K))
      (fd : ℕ → (ℕ → Dual d.M (Dual d.M K)) × (ℕ → Dual d.M (Dual d.M K)) × (ℕ → ℕ → K) →
        (ℕ → Dual d.M (Dual d.M K)) × (ℕ → Dual d.M (Dual d.M K)) × (ℕ → ℕ → K)) (hes : ℕ → _ → _ → ℕ → ℕ → K) (xdf gf : ℕ → _ → _ → ℕ → Dual d.M (Dual d.M K)),
      (∀ k st, fs k st = (xdf k st.1 st.2.1, gf k st.1 st.2.1, st.2.2.bind (runOps d.VAR (hesCols d k (hes k st.1 st.2.1))))) →
      (∀ k st, fd k st = (xdf k st.1 st.2.1, gf k st.1 st.2.1, addNode2 d st.2.2 k 1 (hes k st.1 st.2.1))) →
      (loop n fs (xd0, g0, some A)).1 = (loop n fd (xd0, g0, M)).1 ∧ (loop n fs (xd0, g0, some A)).2.1 = (loop n fd (xd0, g0, M)).2.1 ∧
      ∃ A', (loop n fs (xd0, g0, some A)).2.2 = some A' ∧ HesForm d A' (loop n fd (xd0, g0, M)).2.2 := by
    intro n hn fs fd hes xdf gf hs hd
    induction n with
    | zero => exact ⟨rfl, rfl, A, rfl, hA⟩
    | succ n ih =>
      obtain ⟨e1, e2, A1, e3, h1⟩ := ih (by omega)
      rw [loop_succ, loop_succ, hs, hd, e1, e2, e3]
      obtain ⟨A2, e4, s2, h2⟩ := hesCols_full d (hes n (loop n fd (xd0, g0, M)).1 (loop n fd (xd0, g0, M)).2.1) (show n < d.NN by omega) h1.start h1.holds
      refine ⟨rfl, rfl, A2, e4, by rw [s2]; exact h1.start, h2.congr fun c hc r hr _ => ?_⟩
      dsimp only
      rw [addNode2_apply d _ (by omega) _ _ hr hc, one_mul]
  exact (key d.NN le_rfl _ _
    (fun k xd g => loop d.NG (fun n h r i => h r i + lam (n + k * d.NG + d.NEQ) * hesOf (cb.ineqAD2 (node d var k) (o.time k) g n) r i)
      (loop d.NX (fun n h r i => h r i + -lam (n + k * d.NX) * tScale d o * hesOf (cb.dynAD2 (node d var k) (o.time k) xd n) r i) fun _ _ => 0))
    (fun k xd g => cb.dynAD2 (node d var k) (o.time k) xd) (fun k xd g => cb.ineqAD2 (node d var k) (o.time k) g) (fun k st => rfl) (fun k st => rfl)).2.2

theorem HesForm.scale {d : Dims} {H : Csc K} {M : ℕ → ℕ → K} (h : HesForm d H M) (a : K) : HesForm d (scaleVals a H) fun r c => a * M r c :=
  ⟨h.start, h.holds.cnt, h.holds.fit, h.holds.rows, h.holds.idx, fun c hc r hr => congrArg (a * ·) (h.holds.val c hc r hr)⟩

/-- A call on a fresh matrix or on one with the pattern. -/
theorem costHesSparse_fresh (d : Dims) (hX : 0 < d.NX) (A : Approx K) (cb : Cbs d K) (o : Obj d K) (var : ℕ → K) {H : Csc K} (h : Empty H) :
    costHesSparse d A cb o var H = costHesFresh d A cb o var H := by
  have := hes_nnz_pos d hX
  unfold costHesSparse
  rw [if_pos (by rw [h.nonZeros]; omega), if_neg (by rw [h.nonZeros]; simp)]

theorem costHesSparse_later (d : Dims) (A : Approx K) (cb : Cbs d K) (o : Obj d K) (var : ℕ → K) {H : Csc K} {M : ℕ → ℕ → K} (h : HesForm d H M) :
    costHesSparse d A cb o var H = costHesUpdate d A cb o var H := by
  unfold costHesSparse
  rw [if_neg (by rw [h.nonZeros]; simp)]

/-- The running cost writes its result. -/
def Writes (d : Dims) (cb : Cbs d K) (o : Obj d K) (var : ℕ → K) : Prop :=
  ∃ L : ℕ → Dual d.M (Dual d.M K), ∀ k < d.NN, ∀ old, cb.lagAD2 (node d var k) (o.time k) old = L k

/-- Fresh or with the pattern. -/
def HesInv (d : Dims) (H : Csc K) : Prop := Empty H ∨ ∃ M, HesForm d H M

theorem costHesSparse_keeps (d : Dims) (hX : 0 < d.NX) (hS : 1 ≤ d.S) (hN : 1 ≤ d.N) (A : Approx K) (cb : Cbs d K) (o : Obj d K) (var : ℕ → K) {H : Csc K}
    (h : HesInv d H) (hw : Writes d cb o var) {J : K} {g : ℕ → K} {H' : Csc K} {o' : Obj d K} (e : costHesSparse d A cb o var H = some (J, g, H', o')) :
    ∃ M, HesForm d H' M := by
  obtain ⟨L, hw⟩ := hw
  rcases h with h | ⟨M, h⟩
  · rw [costHesSparse_fresh d hX A cb o var h] at e
    have hok : FirstOk d := by
      unfold costHesFresh at e
      by_cases h1 : (0 < d.NX ∧ d.NU < d.NP) ∨ (0 < d.NP ∧ d.NX + d.NP < d.NU)
      · rw [if_pos h1] at e; exact absurd e (by simp)
      · rw [if_neg h1] at e
        dsimp only at e
        by_cases h2 : 0 < d.NU ∧ (d.NX < d.NU ∨ d.VAR < d.VARX + d.NX)
        · rw [if_pos h2] at e; exact absurd e (by simp)
        · exact ⟨h1, h2⟩
    obtain ⟨_, _, H1, _, e1, _, _, h1⟩ := costHesFresh_form d A cb o var H L hS hN hok hw
    rw [e] at e1
    simp only [Option.some.injEq, Prod.mk.injEq] at e1
    obtain ⟨-, -, rfl, -⟩ := e1
    exact ⟨_, h1⟩
  · rw [costHesSparse_later d A cb o var h] at e
    have hok : ¬ (0 < d.NU ∧ (d.NX < d.NU ∨ d.VAR < d.VARX + d.NX)) := by
      intro h2
      unfold costHesUpdate at e
      dsimp only at e
      rw [if_pos h2] at e; exact absurd e (by simp)
    obtain ⟨_, _, H1, _, e1, _, _, h1⟩ := costHesUpdate_form d A cb o var H M h L hS hok hw
    rw [e] at e1
    simp only [Option.some.injEq, Prod.mk.injEq] at e1
    obtain ⟨-, -, rfl, -⟩ := e1
    exact ⟨_, h1⟩

theorem lagSparse_keeps (d : Dims) (hX : 0 < d.NX) (hS : 1 ≤ d.S) (hN : 1 ≤ d.N) (A : Approx K) (cb : Cbs d K) (o : Obj d K) (junk jac0 : ℕ → ℕ → K)
    (var lam c0 : ℕ → K) (m : SpJac K) (xd0 g0 : ℕ → Dual d.M (Dual d.M K)) (cs : K) {H : Csc K} (h : HesInv d H) (hw : Writes d cb o var)
    {J : K} {g : ℕ → K} {H' : Csc K} {m' : SpJac K} {o' : Obj d K}
    (e : lagrangianGradientHessianSparse d A cb o junk jac0 var lam c0 m xd0 g0 cs H = some (J, g, H', m', o')) : ∃ M, HesForm d H' M := by
  unfold lagrangianGradientHessianSparse at e
  rw [Option.bind_eq_bind, Option.bind_eq_some_iff] at e
  obtain ⟨⟨J1, g1, H1, o1⟩, e1, e⟩ := e
  rw [Option.bind_eq_bind, Option.bind_eq_some_iff] at e
  obtain ⟨⟨c1, m1, o2⟩, e2, e⟩ := e
  rw [Option.bind_eq_bind, Option.bind_eq_some_iff] at e
  obtain ⟨H2, e3, e⟩ := e
  obtain ⟨M, hM⟩ := costHesSparse_keeps d hX hS hN A cb o var h hw e1
  have : ∃ M, HesForm d (if cs = 1 then H1 else scaleVals cs H1) M := by
    split_ifs
    · exact ⟨M, hM⟩
    · exact ⟨_, hM.scale cs⟩
  obtain ⟨M', hM'⟩ := this
  obtain ⟨H3, e4, h4⟩ := addConstraint_sim d cb o2 var lam xd0 g0 hM'
  rw [e3] at e4
  simp only [Option.some.injEq, Prod.mk.injEq] at e e4
  obtain ⟨-, -, rfl, -⟩ := e
  rw [e4]
  exact ⟨_, h4⟩

end Field

section Order
variable {K : Type} [Field K] [LinearOrder K]

/-- The two rank-one terms of the update. -/
def bfgsTerm (d : Dims) (v : ℕ → K) (sBs : K) (r : ℕ → K) (sr : K) (i j : ℕ) : K := -(1 / sBs) * v i * v j + 1 / sr * r i * r j

theorem hessianUpdate_form (d : Dims) {H : Csc K} {M : ℕ → ℕ → K} (h : HesForm d H M) (s y : ℕ → K) {r : ℕ → K} {sr : K}
    (h0 : dotVar d s (mulVec d H s) ≠ 0) (hp : bfgsPair d (mulVec d H s) s y = some (r, sr)) (hsr : sr ≠ 0) :
    ∃ H', hessianUpdate d H s y = some H' ∧
      HesForm d H' fun i j => M i j + bfgsTerm d (mulVec d H s) (dotVar d s (mulVec d H s)) r sr i j := by
  obtain ⟨H', e, h'⟩ := bfgs_full d (bfgsTerm d (mulVec d H s) (dotVar d s (mulVec d H s)) r sr) (fun i j => by unfold bfgsTerm; ring) h
  refine ⟨H', ?_, h'⟩
  unfold hessianUpdate
  dsimp only
  rw [if_neg h0, hp]
  show (if sr = 0 then none else _) = _
  rw [if_neg hsr]
  exact e

theorem hessianUpdate_some (d : Dims) {H H' : Csc K} {s y : ℕ → K} (e : hessianUpdate d H s y = some H') :
    dotVar d s (mulVec d H s) ≠ 0 ∧ ∃ r sr, bfgsPair d (mulVec d H s) s y = some (r, sr) ∧ sr ≠ 0 := by
  unfold hessianUpdate at e
  dsimp only at e
  by_cases h0 : dotVar d s (mulVec d H s) = 0
  · rw [if_pos h0] at e; exact absurd e (by simp)
  · rw [if_neg h0, Option.bind_eq_some_iff] at e
    obtain ⟨⟨r, sr⟩, hp, e⟩ := e
    refine ⟨h0, r, sr, hp, fun hs => ?_⟩
    dsimp only at e
    rw [if_pos hs] at e; exact absurd e (by simp)

theorem mulVec_empty (d : Dims) {H : Csc K} (h : Empty H) (s : ℕ → K) (r : ℕ) : mulVec d H s r = 0 := by
  unfold mulVec
  refine Finset.sum_eq_zero fun c _ => ?_
  unfold Csc.col
  rw [h.cnt]; rfl

/-- The Hessian matrices that some history of calls produces, starting from a matrix that has just been allocated: evaluations of the cost
or of the Lagrangian, each with its own callbacks (which write their running cost), point, horizon and buffers, and quasi-Newton updates. -/
inductive ReachH (d : Dims) (A : Approx K) : Csc K → Prop
  | init {H : Csc K} : Empty H → ReachH d A H
  | cost {H H' : Csc K} (cb : Cbs d K) (o o' : Obj d K) (var : ℕ → K) (J : K) (g : ℕ → K) : ReachH d A H → Writes d cb o var →
      costHesSparse d A cb o var H = some (J, g, H', o') → ReachH d A H'
  | lagrangian {H H' : Csc K} (cb : Cbs d K) (o o' : Obj d K) (junk jac0 : ℕ → ℕ → K) (var lam c0 : ℕ → K) (m m' : SpJac K)
      (xd0 g0 : ℕ → Dual d.M (Dual d.M K)) (costScale : K) (J : K) (g : ℕ → K) : ReachH d A H → Writes d cb o var →
      lagrangianGradientHessianSparse d A cb o junk jac0 var lam c0 m xd0 g0 costScale H = some (J, g, H', m', o') → ReachH d A H'
  | bfgs {H H' : Csc K} (s y : ℕ → K) : ReachH d A H → hessianUpdate d H s y = some H' → ReachH d A H'

theorem ReachH.inv {d : Dims} {A : Approx K} (hX : 0 < d.NX) (hS : 1 ≤ d.S) (hN : 1 ≤ d.N) {H : Csc K} (h : ReachH d A H) : HesInv d H := by
  induction h with
  | init h => exact Or.inl h
  | cost cb o o' var J g _ hw e ih => exact Or.inr (costHesSparse_keeps d hX hS hN A cb o var ih hw e)
  | lagrangian cb o o' junk jac0 var lam c0 m m' xd0 g0 cs J g _ hw e ih =>
    exact Or.inr (lagSparse_keeps d hX hS hN A cb o junk jac0 var lam c0 m xd0 g0 cs ih hw e)
  | bfgs s y _ e ih =>
    obtain ⟨h0, r, sr, hp, hsr⟩ := hessianUpdate_some d e
    rcases ih with ih | ⟨M, ih⟩
    · refine absurd ?_ h0
      unfold dotVar
      exact Finset.sum_eq_zero fun c _ => by rw [mulVec_empty d ih, mul_zero]
    · obtain ⟨H1, e1, h1⟩ := hessianUpdate_form d ih s y h0 hp hsr
      rw [e] at e1
      rw [Option.some.inj e1]
      exact Or.inr ⟨_, h1⟩

end Order

end PolyMPC.Ocp
