import Verif.Lemmas.OcpSparseCon
import Verif.Props.Ocp

/-!
# Transcription of the optimal control problem, sparse constraints (C40, C41, C44)

The members `m_Je`, `m_Ji` of an object and the matrix of the caller go through an arbitrary history of calls; the entries found in the
matrix are compared with those of the dense version.
-/

namespace PolyMPC.Ocp
open AD Sparse Sparse.Csc

set_option linter.unusedSectionVars false
set_option linter.unusedVariables false

variable {K : Type} [Field K] [DecidableEq K]

/-- The matrices that some history of calls produces, starting from matrices that have just been allocated. Every call has its own
callbacks, point, time horizon, AD buffers and uninitialised storage. -/
inductive Reach (d : Dims) (A : Approx K) : SpJac K → Prop
  | init {m : SpJac K} : Empty m.Je → Empty m.Ji → Empty m.J → Reach d A m
  | step {m m' : SpJac K} (cb : Cbs d K) (o o' : Obj d K) (junk jac0 : ℕ → ℕ → K) (var c0 c : ℕ → K) : Reach d A m →
      constraintsLinSparse d A cb o junk jac0 var c0 m = some (c, m', o') → Reach d A m'

/-- The first-time state or the state after a successful call. -/
def Inv (d : Dims) (A : Approx K) (m : SpJac K) : Prop :=
  (Empty m.Je ∧ Empty m.Ji ∧ Empty m.J) ∨ ∃ W M M0, EqForm d A W m.Je ∧ IneqForm d M m.Ji ∧ ConForm d M0 m.J

theorem eqLinSparse_form (d : Dims) (A : Approx K) (hX : 0 < d.NX) (hS : 1 ≤ d.S) (hN : 1 ≤ d.N) (hD : OffDiag d A) (cb : Cbs d K) (o : Obj d K)
    (junk : ℕ → ℕ → K) (var c0 : ℕ → K) {J : Csc K} (hJ : Empty J ∨ ∃ W, EqForm d A W J) :
    ∃ J', eqLinSparse d A cb o junk var c0 J = some (cT d A cb o junk var c0 d.NN, J', { o with adY := yT d cb o var d.NN }) ∧
      EqForm d A (fun k b i => -tScale d o * derAt (yT d cb o var (k + 1) b) i) J' := by
  have hpos := sum_nnz_pos d hX hS hN
  unfold eqLinSparse
  rcases hJ with h | ⟨W, h⟩
  · rw [if_pos (by rw [h.nonZeros]; omega), if_neg (by rw [h.nonZeros]; simp)]
    exact eqLinFresh_form d A hX hS hN hD cb o junk var c0 J
  · rw [if_neg (by rw [h.nonZeros hS hN]; simp)]
    exact eqLinUpdate_form d A hX hS hN cb o junk var c0 h

theorem sum_ineq_pos (d : Dims) (hX : 0 < d.NX) (hG : 0 < d.NG) : 0 < sumNnz d (ineqNnz d) := by
  have h0 : 0 < d.NN := by unfold Dims.NN; omega
  have hv : 0 < d.VARX := by have := xIdx_lt d h0 hX; omega
  unfold sumNnz
  refine lt_of_lt_of_le ?_ (Finset.single_le_sum (f := ineqNnz d) (fun _ _ => Nat.zero_le _) (Finset.mem_range.2 (show 0 < d.VAR by
    unfold Dims.VAR; omega)))
  rw [ineqNnz_block d (by omega)]; exact hG

/-- What one call leaves in the inequality matrix. -/
theorem ineqLinSparse_form (d : Dims) (hX : 0 < d.NX) (cb : Cbs d K) (o : Obj d K) (jac0 : ℕ → ℕ → K) (var c0 : ℕ → K) {J : Csc K}
    (hJ : Empty J ∨ (d.NG ≤ d.NX ∧ ∃ M, IneqForm d M J)) :
    ∃ c J' o', ineqLinSparse d cb o jac0 var c0 J = some (c, J', o') ∧ (d.NG ≠ 0 → c = cgT d cb o var c0 d.NN ∧ o' = { o with adG := gT d cb o var d.NN }) ∧
      ((Empty J ∨ d.NG = 0 ∨ d.NG = d.NX) → IneqForm d (ineqTgt d fun k b i => derAt (gT d cb o var (k + 1) b) i) J') ∧
      (¬ Empty J → d.NG ≠ 0 → IneqForm d (ineqCopied d (jacT d cb o var jac0)) J') ∧ (∃ M, IneqForm d M J') := by
  unfold ineqLinSparse
  by_cases h0 : d.NG = 0
  · rw [if_pos h0]
    have hf : ∀ M, IneqForm d M J := by
      intro M
      rcases hJ with h | ⟨_, M', h⟩
      · exact h.ineqForm h0 M
      · refine ⟨h.holds.congr fun c hc r hr hp => ?_, h.start⟩
        have := rowPat_lt d hp
        rw [h0, Nat.zero_mul] at this
        omega
    exact ⟨c0, J, o, rfl, fun h => absurd h0 h, fun _ => hf _, fun _ h => absurd h0 h, ⟨_, hf fun _ _ => 0⟩⟩
  · rw [if_neg h0]
    have hpos := sum_ineq_pos d hX (by omega)
    by_cases hE : Empty J
    · rw [if_pos (by rw [hE.nonZeros]; omega), if_neg (by rw [hE.nonZeros]; simp)]
      obtain ⟨J', e, h⟩ := ineqLinFresh_form d cb o var c0 J
      exact ⟨_, J', _, e, fun _ => ⟨rfl, rfl⟩, fun _ => h, fun h' => absurd hE h', ⟨_, h⟩⟩
    · rcases hJ with h | ⟨hle, M, h⟩
      · exact absurd h hE
      · rw [if_neg (by rw [h.nonZeros]; simp)]
        obtain ⟨J', e, h'⟩ := ineqLinUpdate_form d (by omega) hle cb o jac0 var c0 h
        refine ⟨_, J', _, e, fun _ => ⟨rfl, rfl⟩, fun hh => ?_, fun _ _ => h', ⟨_, h'⟩⟩
        have hG : d.NG = d.NX := by
          rcases hh with hh | hh | hh
          · exact absurd hh hE
          · exact absurd hh h0
          · exact hh
        exact ⟨h'.holds.congr fun c hc r hr hp => ineqCopied_square d hG cb o var jac0 hc hr hp, h'.start⟩

theorem dense_eq_row (d : Dims) (A : Approx K) (hS : 1 ≤ d.S) (hN : 1 ≤ d.N) (hsk : SkewEnds d A) (cb : Cbs d K) (o : Obj d K)
    (junk : ℕ → ℕ → K) (var c0 : ℕ → K) {r c : ℕ} (hr : r < d.NEQ) (hc : c < d.VAR) :
    (equalitiesLin d A cb o junk var c0).2.1 r c = eqTgt d A (fun k b i => -tScale d o * derAt (yT d cb o var (k + 1) b) i) r c := by
  obtain ⟨k, b, hk, hb, rfl⟩ := blk_split (show r < d.NX * d.NN from hr)
  rw [(equalitiesLin_trace d A cb o junk var c0).2.2 k hk b hb c hc, denseDiff_composite d A hS hN hsk hk hb hc]
  unfold eqTgt diffPart
  rw [blk_div k hb, blk_mod k hb]
  congr 1
  · by_cases h : c < d.VARX ∧ c % d.NX = b
    · rw [if_pos h, if_pos ⟨h.1, h.2.symm⟩]
    · rw [if_neg h, if_neg fun hh : c < d.VARX ∧ b = c % d.NX => h ⟨hh.1, hh.2.symm⟩]
  · exact congrArg (fun g => scatter d k g c) (funext fun i => (neg_mul _ _).symm)

theorem dense_ineq_row (d : Dims) (cb : Cbs d K) (o : Obj d K) (var c0 : ℕ → K) {r c : ℕ} (hr : r < d.NINEQ) (hc : c < d.VAR) :
    (inequalitiesLin d cb o var c0).2.1 r c = ineqTgt d (fun k b i => derAt (gT d cb o var (k + 1) b) i) r c := by
  obtain ⟨k, b, hk, hb, rfl⟩ := blk_split (show r < d.NG * d.NN from hr)
  rw [(inequalitiesLin_trace d cb o var c0).2.2 k hk b hb c hc]
  unfold ineqTgt
  rw [blk_div k hb, blk_mod k hb]

/-- Entries outside the pattern are zero in the dense matrix. -/
theorem eqTgt_off (d : Dims) (A : Approx K) (hS : 1 ≤ d.S) (hN : 1 ≤ d.N) (hD : OffDiag d A) (W : ℕ → ℕ → ℕ → K) {r c : ℕ} (hr : r < d.NEQ)
    (hc : c < d.VAR) (h : eqPat d c r = false) : eqTgt d A W r c = 0 := by
  rw [← eqPat_split d A hS hN hD hc, Bool.or_eq_false_iff] at h
  unfold eqTgt
  rw [scatter_miss d hc hr h.1, add_zero]
  unfold diffPart
  by_cases hh : c < d.VARX ∧ r % d.NX = c % d.NX
  · rw [if_pos hh]
    refine keepB_false d A ?_
    have h2 := h.2
    rw [decide_eq_true hh.1, Bool.true_and] at h2
    unfold diffPat at h2
    rw [decide_eq_true (show r < d.VARX from hr), decide_eq_true hh.2] at h2
    simpa using h2
  · rw [if_neg hh]

theorem setSeg_none (z : ℕ → K) (a : ℕ) (f : ℕ → K) : setSeg z a 0 f = z := funext fun i => if_neg (by omega)

theorem step_spec (d : Dims) (A : Approx K) (hX : 0 < d.NX) (hS : 1 ≤ d.S) (hN : 1 ≤ d.N) (hsk : SkewEnds d A) (hD : OffDiag d A) (cb : Cbs d K)
    (o : Obj d K) (junk jac0 : ℕ → ℕ → K) (var c0 : ℕ → K) (J0 : ℕ → ℕ → K) {m : SpJac K} (hm : Inv d A m) (hle : d.NG ≤ d.NX ∨ Empty m.Ji) :
    ∃ c m' o', constraintsLinSparse d A cb o junk jac0 var c0 m = some (c, m', o') ∧ Inv d A m' ∧ ¬ Empty m'.J ∧ (∃ M, ConForm d M m'.J) ∧ (d.NG ≠ 0 → ¬ Empty m'.Ji) ∧
      (∀ cc < d.VAR, m'.J.cnt cc = eqNnz d cc + ineqNnz d cc) ∧
      c = (constraintsLin d A cb o junk var c0 J0).1 ∧ (d.NG ≠ 0 → o' = (constraintsLin d A cb o junk var c0 J0).2.2) ∧
      (∀ r < d.NEQ, ∀ cc < d.VAR, m'.J.coeff r cc = (constraintsLin d A cb o junk var c0 J0).2.1 r cc) ∧
      ((Empty m.Ji ∨ d.NG = 0 ∨ d.NG = d.NX) → ∀ r < d.NINEQ, ∀ cc < d.VAR,
        m'.J.coeff (d.NEQ + r) cc = (constraintsLin d A cb o junk var c0 J0).2.1 (d.NEQ + r) cc) ∧
      (¬ Empty m.Ji → d.NG ≠ 0 → ∀ r < d.NINEQ, ∀ cc < d.VAR, rowPat d d.NG cc r = true →
        m'.J.coeff (d.NEQ + r) cc = ineqCopied d (jacT d cb { o with adY := yT d cb o var d.NN } var jac0) r cc) := by
  obtain ⟨Je, e1, h1⟩ := eqLinSparse_form d A hX hS hN hD cb o junk var c0 (J := m.Je) (by
    rcases hm with h | ⟨W, M, M0, h, _⟩
    · exact Or.inl h.1
    · exact Or.inr ⟨W, h⟩)
  obtain ⟨cg, Ji, o2, e2, h2, h3, h4, M, h5⟩ := ineqLinSparse_form d hX cb { o with adY := yT d cb o var d.NN } jac0 var
    (fun i => setSeg c0 0 d.NEQ (cT d A cb o junk var c0 d.NN) (d.NEQ + i)) (J := m.Ji) (by
    rcases hm with h | ⟨W, M, M0, _, h, _⟩
    · exact Or.inl h.2.1
    · rcases hle with hle | hle
      · exact Or.inr ⟨hle, M, h⟩
      · exact Or.inl hle)
  have hasm : ∀ M, IneqForm d M Ji → ∃ J', assemble d Je Ji m.J = some J' ∧ ConForm d (stack d (eqTgt d A fun k b i => -tScale d o * derAt (yT d cb o var (k + 1) b) i) M) J' := by
    intro M hM
    rcases hm with h | ⟨W, M', M0, _, _, h⟩
    · exact assemble_fresh d hX hS hN h1 hM h.2.2
    · exact assemble_update d hX hS hN h1 hM h
  obtain ⟨J', e3, h6⟩ := hasm M h5
  have ht := equalitiesLin_trace d A cb o junk var c0
  have hrun : constraintsLinSparse d A cb o junk jac0 var c0 m
      = some (setSeg (setSeg c0 0 d.NEQ (cT d A cb o junk var c0 d.NN)) d.NEQ d.NINEQ cg, ⟨Je, Ji, J'⟩, o2) := by
    show (eqLinSparse d A cb o junk var c0 m.Je).bind _ = _
    rw [e1]
    show (ineqLinSparse d cb { o with adY := yT d cb o var d.NN } jac0 var
      (fun i => setSeg c0 0 d.NEQ (cT d A cb o junk var c0 d.NN) (d.NEQ + i)) m.Ji).bind _ = _
    rw [e2]
    show (assemble d Je Ji m.J).bind _ = _
    rw [e3]
    rfl
  have hcon : constraintsLin d A cb o junk var c0 J0 = (setSeg (setSeg c0 0 d.NEQ (cT d A cb o junk var c0 d.NN)) d.NEQ d.NINEQ
      (inequalitiesLin d cb { o with adY := yT d cb o var d.NN } var (fun i => setSeg c0 0 d.NEQ (cT d A cb o junk var c0 d.NN) (d.NEQ + i))).1,
      setBlock (setBlock J0 0 0 d.NEQ d.VAR (equalitiesLin d A cb o junk var c0).2.1) d.NEQ 0 d.NINEQ d.VAR
        (inequalitiesLin d cb { o with adY := yT d cb o var d.NN } var (fun i => setSeg c0 0 d.NEQ (cT d A cb o junk var c0 d.NN) (d.NEQ + i))).2.1,
      (inequalitiesLin d cb { o with adY := yT d cb o var d.NN } var (fun i => setSeg c0 0 d.NEQ (cT d A cb o junk var c0 d.NN) (d.NEQ + i))).2.2) := by
    unfold constraintsLin
    dsimp only
    rw [ht.1, ht.2.1]
  have hit := inequalitiesLin_trace d cb { o with adY := yT d cb o var d.NN } var
    (fun i => setSeg c0 0 d.NEQ (cT d A cb o junk var c0 d.NN) (d.NEQ + i))
  have hcnt : ∀ cc < d.VAR, J'.cnt cc = eqNnz d cc + ineqNnz d cc := fun cc hcc => by rw [h6.holds.cnt cc hcc, rank_conPat hS hN hcc]
  refine ⟨_, _, _, hrun, Or.inr ⟨_, _, _, h1, h5, h6⟩, fun hE => ?_, ⟨_, h6⟩, fun h0 hE => ?_, hcnt, ?_, fun h0 => ?_, fun r hr cc hcc => ?_, fun hok r hr cc hcc => ?_,
    fun hE h0 r hr cc hcc hp => ?_⟩
  · have hp := sum_nnz_pos d hX hS hN
    have := h6.nonZeros hS hN
    rw [hE.nonZeros] at this
    omega
  · have hp := sum_ineq_pos d hX (by omega)
    have := h5.nonZeros
    rw [hE.nonZeros] at this
    omega
  · rw [hcon]
    dsimp only
    by_cases h0 : d.NG = 0
    · have : d.NINEQ = 0 := by unfold Dims.NINEQ; rw [h0, Nat.zero_mul]
      rw [this, setSeg_none, setSeg_none]
    · rw [(h2 h0).1, hit.1]
  · rw [hcon]
    dsimp only
    rw [(h2 h0).2, hit.2.1]
  · rw [hcon]
    dsimp only
    unfold setBlock
    rw [if_neg (by omega), if_pos (by omega), Nat.sub_zero, Nat.sub_zero, dense_eq_row d A hS hN hsk cb o junk var c0 hr hcc, h6.holds.coeff_eq hcc,
      conPat_eq hr]
    unfold stack
    by_cases hp : eqPat d cc r = true
    · rw [if_pos hp, if_pos hr]
    · rw [if_neg hp, eqTgt_off d A hS hN hD _ hr hcc (Bool.eq_false_iff.2 hp)]
  · obtain ⟨J2, e4, h7⟩ := hasm _ (h3 hok)
    have : J2 = J' := Option.some.inj (e4.symm.trans e3)
    subst this
    rw [hcon]
    dsimp only
    unfold setBlock
    rw [if_pos (by omega), Nat.add_sub_cancel_left, Nat.sub_zero, dense_ineq_row d cb _ var _ hr hcc, h7.holds.coeff_eq hcc, conPat_ineq]
    by_cases hp : rowPat d d.NG cc r = true
    · rw [if_pos hp]
      unfold stack
      rw [if_neg (by omega), Nat.add_sub_cancel_left]
    · rw [if_neg hp]
      unfold ineqTgt
      rw [scatter_miss d hcc hr (Bool.eq_false_iff.2 hp)]
  · obtain ⟨J2, e4, h7⟩ := hasm _ (h4 hE h0)
    have : J2 = J' := Option.some.inj (e4.symm.trans e3)
    subst this
    dsimp only
    rw [h7.holds.coeff_eq hcc, conPat_ineq, if_pos hp]
    unfold stack
    rw [if_neg (by omega), Nat.add_sub_cancel_left]

theorem update_asserts (d : Dims) (A : Approx K) (hX : 0 < d.NX) (hS : 1 ≤ d.S) (hN : 1 ≤ d.N) (hD : OffDiag d A) (cb : Cbs d K)
    (o : Obj d K) (junk jac0 : ℕ → ℕ → K) (var c0 : ℕ → K) {m : SpJac K} (hm : Inv d A m) (hE : ¬ Empty m.Ji) (hlt : d.NX < d.NG) :
    constraintsLinSparse d A cb o junk jac0 var c0 m = none := by
  rcases hm with h | ⟨W, M, M0, h1, h2, _⟩
  · exact absurd h.2.1 hE
  · obtain ⟨Je, e1, _⟩ := eqLinSparse_form d A hX hS hN hD cb o junk var c0 (J := m.Je) (Or.inr ⟨W, h1⟩)
    show (eqLinSparse d A cb o junk var c0 m.Je).bind _ = _
    rw [e1]
    have e2 : ∀ o c0, ineqLinSparse d cb o jac0 var c0 m.Ji = none := fun o c0 => by
      unfold ineqLinSparse
      rw [if_neg (by omega), if_neg (by rw [h2.nonZeros]; simp)]
      exact if_pos hlt
    show (ineqLinSparse d cb { o with adY := yT d cb o var d.NN } jac0 var _ m.Ji).bind _ = _
    rw [e2]
    rfl

theorem Reach.inv {d : Dims} {A : Approx K} (hX : 0 < d.NX) (hS : 1 ≤ d.S) (hN : 1 ≤ d.N) (hsk : SkewEnds d A) (hD : OffDiag d A) {m : SpJac K}
    (h : Reach d A m) : Inv d A m := by
  induction h with
  | init h1 h2 h3 => exact Or.inl ⟨h1, h2, h3⟩
  | @step m m' cb o o' junk jac0 var c0 c _ e ih =>
    by_cases hle : d.NG ≤ d.NX ∨ Empty m.Ji
    · obtain ⟨c1, m1, o1, e1, h1, _⟩ := step_spec d A hX hS hN hsk hD cb o junk jac0 var c0 (fun _ _ => 0) ih hle
      rw [e] at e1
      simp only [Option.some.injEq, Prod.mk.injEq] at e1
      rw [e1.2.1]; exact h1
    · have hle' := not_or.1 hle
      rw [update_asserts d A hX hS hN hD cb o junk jac0 var c0 ih hle'.2 (by omega)] at e
      exact absurd e (by simp)

/-- The state of an object on which nothing has been called. -/
def First (m : SpJac K) : Prop := Empty m.Je ∧ Empty m.Ji ∧ Empty m.J

/-! ### C40 -/

/-- **C40.** After any history of calls the sparse linearisation succeeds; it returns the same constraint values as the dense one, and in
the rows of the collocation constraints exactly the dense Jacobian entries. Path constraints do not disturb this as long as there are not
more of them than states (or it is the first call). -/
theorem sparse_dynamics_eq_dense (d : Dims) (A : Approx K) (hX : 0 < d.NX) (hS : 1 ≤ d.S) (hN : 1 ≤ d.N) (hsk : SkewEnds d A) (hD : OffDiag d A)
    (cb : Cbs d K) (o : Obj d K) (junk jac0 : ℕ → ℕ → K) (var c0 : ℕ → K) (J0 : ℕ → ℕ → K) {m : SpJac K} (hm : Reach d A m)
    (hG : d.NG ≤ d.NX ∨ First m) :
    ∃ c m' o', constraintsLinSparse d A cb o junk jac0 var c0 m = some (c, m', o') ∧ c = (constraintsLin d A cb o junk var c0 J0).1 ∧
      ∀ r < d.NEQ, ∀ cc < d.VAR, m'.J.coeff r cc = (constraintsLin d A cb o junk var c0 J0).2.1 r cc := by
  obtain ⟨c, m', o', e, -, -, -, -, -, hc, -, h, -⟩ := step_spec d A hX hS hN hsk hD cb o junk jac0 var c0 J0 (hm.inv hX hS hN hsk hD)
    (hG.imp_right fun h => h.2.1)
  exact ⟨c, m', o', e, hc, h⟩

/-- **C40, C44.** With no path constraints, with as many as states, or on the first call, all rows agree with the dense Jacobian, after any
history of calls. -/
theorem sparse_eq_dense (d : Dims) (A : Approx K) (hX : 0 < d.NX) (hS : 1 ≤ d.S) (hN : 1 ≤ d.N) (hsk : SkewEnds d A) (hD : OffDiag d A)
    (cb : Cbs d K) (o : Obj d K) (junk jac0 : ℕ → ℕ → K) (var c0 : ℕ → K) (J0 : ℕ → ℕ → K) {m : SpJac K} (hm : Reach d A m)
    (hG : d.NG = 0 ∨ d.NG = d.NX ∨ First m) :
    ∃ c m' o', constraintsLinSparse d A cb o junk jac0 var c0 m = some (c, m', o') ∧ c = (constraintsLin d A cb o junk var c0 J0).1 ∧
      ∀ r < d.NEQ + d.NINEQ, ∀ cc < d.VAR, m'.J.coeff r cc = (constraintsLin d A cb o junk var c0 J0).2.1 r cc := by
  obtain ⟨c, m', o', e, -, -, -, -, -, hc, -, h1, h2, -⟩ := step_spec d A hX hS hN hsk hD cb o junk jac0 var c0 J0 (hm.inv hX hS hN hsk hD) (by
    rcases hG with h | h | h
    · left; omega
    · left; omega
    · exact Or.inr h.2.1)
  refine ⟨c, m', o', e, hc, fun r hr cc hcc => ?_⟩
  rcases Nat.lt_or_ge r d.NEQ with h | h
  · exact h1 r h cc hcc
  · obtain ⟨q, rfl⟩ := Nat.exists_eq_add_of_le h
    refine h2 ?_ q (by omega) cc hcc
    rcases hG with h | h | h
    · exact Or.inr (Or.inl h)
    · exact Or.inr (Or.inr h)
    · exact Or.inl h.2.1

/-- Two matrices of this form with the same entries have the same columns. -/
theorem ConForm.col_congr {d : Dims} {M M' : ℕ → ℕ → K} {J J' : Csc K} (h : ConForm d M J) (h' : ConForm d M' J') {c : ℕ} (hc : c < d.VAR)
    (he : ∀ r < d.NEQ + d.NINEQ, J.coeff r c = J'.coeff r c) : J.col c = J'.col c := by
  rw [h.holds.col_eq hc, h'.holds.col_eq hc]
  unfold canon
  refine List.map_congr_left fun r hr => ?_
  simp only [List.mem_filter, List.mem_range] at hr
  have := he r hr.1
  rw [h.holds.coeff_eq hc, h'.holds.coeff_eq hc, if_pos hr.2, if_pos hr.2] at this
  dsimp only
  rw [this]

/-- **C40.** Re-evaluation into the existing pattern is a fresh evaluation: the same stored entries, in the same order, column by column. -/
theorem update_eq_fresh (d : Dims) (A : Approx K) (hX : 0 < d.NX) (hS : 1 ≤ d.S) (hN : 1 ≤ d.N) (hsk : SkewEnds d A) (hD : OffDiag d A)
    (cb : Cbs d K) (o : Obj d K) (junk jac0 jac1 : ℕ → ℕ → K) (var c0 : ℕ → K) {m m0 : SpJac K} (hm : Reach d A m) (h0 : First m0)
    (hG : d.NG = 0 ∨ d.NG = d.NX) :
    ∃ c m' m1 o' o1, constraintsLinSparse d A cb o junk jac0 var c0 m = some (c, m', o') ∧
      constraintsLinSparse d A cb o junk jac1 var c0 m0 = some (c, m1, o1) ∧ ∀ cc < d.VAR, m'.J.col cc = m1.J.col cc := by
  obtain ⟨c, m', o', e, hc, h1⟩ := sparse_eq_dense d A hX hS hN hsk hD cb o junk jac0 var c0 (fun _ _ => 0) hm (hG.imp_right Or.inl)
  obtain ⟨c', m1, o1, e', hc', h1'⟩ := sparse_eq_dense d A hX hS hN hsk hD cb o junk jac1 var c0 (fun _ _ => 0)
    (Reach.init (A := A) h0.1 h0.2.1 h0.2.2) (hG.imp_right Or.inl)
  obtain ⟨_, m2, _, e2, _, _, ⟨M, hM⟩, _⟩ := step_spec d A hX hS hN hsk hD cb o junk jac0 var c0 (fun _ _ => 0) (hm.inv hX hS hN hsk hD)
    (Or.inl (by omega))
  obtain ⟨_, m3, _, e3, _, _, ⟨M', hM'⟩, _⟩ := step_spec d A hX hS hN hsk hD cb o junk jac1 var c0 (fun _ _ => 0) (m := m0) (Or.inl h0)
    (Or.inl (by omega))
  rw [e] at e2
  rw [e'] at e3
  simp only [Option.some.injEq, Prod.mk.injEq] at e2 e3
  obtain ⟨-, rfl, -⟩ := e2
  obtain ⟨-, rfl, -⟩ := e3
  refine ⟨c, m', m1, o', o1, e, by rw [e', hc, hc'], fun cc hcc => hM.col_congr hM' hcc fun r hr => ?_⟩
  rw [h1 r hr cc hcc, h1' r hr cc hcc]

/-- The Chebyshev differentiation matrix has no zeros off its diagonal. -/
theorem cheb_offDiag (d : Dims) : OffDiag d (chebApprox d.N) := by
  intro i hi j hj hne
  have h := cheb_D d.N ⟨i, by omega⟩ ⟨j, by omega⟩
  have hij : (⟨i, by omega⟩ : Fin (d.N + 1)) ≠ ⟨j, by omega⟩ := fun h => hne (by simpa using h)
  rw [show (chebApprox d.N).D i j = _ from h, Cheb.diffMatrix, Matrix.sub_apply, Matrix.diagonal_apply_ne _ hij, sub_zero, Cheb.Dn,
    Matrix.of_apply, if_neg hij, add_zero]
  refine mul_ne_zero (mul_ne_zero (Cheb.cVec_ne_zero _) (inv_ne_zero (Cheb.cVec_ne_zero _))) (inv_ne_zero (sub_ne_zero.2 fun he => hij ?_))
  exact Cheb.nodes_injective he

open Classical in
/-- **C40** for the Chebyshev scheme of the library. -/
theorem cheb_sparse_eq_dense (d : Dims) (hX : 0 < d.NX) (hS : 1 ≤ d.S) (hN : 1 ≤ d.N) (cb : Cbs d ℝ) (o : Obj d ℝ) (junk jac0 : ℕ → ℕ → ℝ)
    (var c0 : ℕ → ℝ) (J0 : ℕ → ℕ → ℝ) {m : SpJac ℝ} (hm : Reach d (chebApprox d.N) m) (hG : d.NG = 0 ∨ d.NG = d.NX ∨ First m) :
    ∃ c m' o', constraintsLinSparse d (chebApprox d.N) cb o junk jac0 var c0 m = some (c, m', o') ∧
      c = (constraintsLin d (chebApprox d.N) cb o junk var c0 J0).1 ∧
      ∀ r < d.NEQ + d.NINEQ, ∀ cc < d.VAR, m'.J.coeff r cc = (constraintsLin d (chebApprox d.N) cb o junk var c0 J0).2.1 r cc :=
  sparse_eq_dense d _ hX hS hN (cheb_skew d hN) (cheb_offDiag d) cb o junk jac0 var c0 J0 hm hG

/-! ### C41 -/

/-- Row `r` of the collocation constraints depends on variable `c`: either the variable belongs to the node of the row (or is a
parameter), or it is the same state component at another node of the segment in which the row's node is collocated (a node between two
segments is collocated in the later one, the last node in the last segment). -/
def Coupled (d : Dims) (r c : ℕ) : Prop :=
  (∃ i < d.NX, c = d.NX * (r / d.NX) + i) ∨ (∃ i < d.NU, c = d.NX * d.NN + d.NU * (r / d.NX) + i) ∨ d.NX * d.NN + d.NU * d.NN ≤ c ∨
  (c < d.NX * d.NN ∧ r % d.NX = c % d.NX ∧ ∃ s < d.S, s * d.N ≤ r / d.NX ∧ (r / d.NX < s * d.N + d.N ∨ r / d.NX = d.S * d.N) ∧
    r / d.NX ≤ s * d.N + d.N ∧ s * d.N ≤ c / d.NX ∧ c / d.NX ≤ s * d.N + d.N)

theorem eqPat_coupled (d : Dims) (hS : 1 ≤ d.S) (hN : 1 ≤ d.N) {r c : ℕ} (hr : r < d.NEQ) (hc : c < d.VAR) :
    eqPat d c r = true ↔ Coupled d r c := by
  obtain ⟨k, b, hk, hb, rfl⟩ := blk_split (show r < d.NX * d.NN from hr)
  have hVX : d.VARX = d.NX * d.NN := rfl
  have hVU : d.VARU = d.NU * d.NN := rfl
  unfold eqPat Coupled
  rw [rowPat_at d hk hb, blk_div k hb, blk_mod k hb]
  have hdom : k * d.NX + b < d.VARX := hr
  have hseg : ∀ i, i < d.NN → ((lo d i ≤ k ∧ k < hi d i) ↔ ∃ s < d.S, s * d.N ≤ k ∧ (k < s * d.N + d.N ∨ k = d.S * d.N) ∧ k ≤ s * d.N + d.N ∧
      s * d.N ≤ i ∧ i ≤ s * d.N + d.N) := by
    intro i hi'
    constructor
    · intro h
      obtain ⟨s, j, hs, hj, hjs, rfl⟩ := node_split d hS hN hk
      have := (segment_lo_hi d hN hs hj hjs hi').2 h
      refine ⟨s, hs, by omega, ?_, by omega, this.1, this.2⟩
      rcases hjs with h' | h'
      · left; omega
      · have : d.S * d.N = s * d.N + d.N := by rw [← h', Nat.add_mul, Nat.one_mul]
        omega
    · rintro ⟨s, hs, h1, h2, h3, h4⟩
      obtain ⟨j, rfl⟩ := Nat.exists_eq_add_of_le h1
      refine (segment_lo_hi d hN hs (by omega) ?_ hi').1 h4
      rcases h2 with h | h
      · left; omega
      · right
        by_contra hne
        have := mul_step (n := d.N) (show s + 1 < d.S by omega)
        rw [Nat.add_mul, Nat.one_mul] at this
        omega
  rw [Bool.or_eq_true, hitB_iff d hk hc, Bool.and_eq_true, Bool.and_eq_true, Bool.and_eq_true, decide_eq_true_eq, decide_eq_true_eq,
    decide_eq_true_eq, decide_eq_true_eq]
  have hnode : (∃ i < d.M, nodeIdx d k i = c) ↔ ((∃ i < d.NX, c = d.NX * k + i) ∨ (∃ i < d.NU, c = d.NX * d.NN + d.NU * k + i) ∨
      d.NX * d.NN + d.NU * d.NN ≤ c) := by
    rw [Nat.mul_comm d.NX k, Nat.mul_comm d.NU k]
    constructor
    · rintro ⟨i, hi', rfl⟩
      unfold nodeIdx Dims.M at *
      by_cases h1 : i < d.NX
      · left; exact ⟨i, h1, if_pos h1⟩
      by_cases h2 : i < d.NX + d.NU
      · right; left; refine ⟨i - d.NX, by omega, ?_⟩
        rw [if_neg h1, if_pos h2]; omega
      · right; right
        rw [if_neg h1, if_neg h2]; omega
    · rintro (⟨i, hi', rfl⟩ | ⟨i, hi', rfl⟩ | h)
      · exact ⟨i, by unfold Dims.M; omega, nodeIdx_x d k hi'⟩
      · refine ⟨d.NX + i, by unfold Dims.M; omega, ?_⟩
        rw [nodeIdx_u d k hi', hVX]; omega
      · refine ⟨d.NX + d.NU + (c - (d.VARX + d.VARU)), by unfold Dims.M; unfold Dims.VAR at hc; omega, ?_⟩
        rw [nodeIdx_p]; omega
  rw [hnode, or_assoc, or_assoc]
  refine or_congr_right (or_congr_right (or_congr_right ?_))
  rw [hVX]
  constructor
  · rintro ⟨h1, -, h2, h3⟩
    refine ⟨h1, h2, (hseg _ ?_).1 h3⟩
    exact Nat.div_lt_of_lt_mul h1
  · rintro ⟨h1, h2, h3⟩
    refine ⟨h1, hdom, h2, (hseg _ ?_).2 h3⟩
    exact Nat.div_lt_of_lt_mul h1

open Classical in
/-- **C41.** The number of entries reserved per column of the collocation Jacobian is the number of rows that depend on that variable. -/
theorem reserved_count (d : Dims) (hS : 1 ≤ d.S) (hN : 1 ≤ d.N) {c : ℕ} (hc : c < d.VAR) :
    eqNnz d c = ((Finset.range d.NEQ).filter fun r => Coupled d r c).card := by
  rw [eqNnz_rank hS hN hc]
  unfold rank
  rw [Nat.count_eq_card_filter_range]
  congr 1
  refine Finset.filter_congr fun r hr => ?_
  exact eqPat_coupled d hS hN (Finset.mem_range.1 hr) hc

/-- **C41.** After every successful call, first or repeated, the assembled Jacobian stores exactly the reserved number of entries in every
column, there is no unused room between the columns, and `nnz_jacobian` is the number of stored entries. -/
theorem reserved_exact (d : Dims) (A : Approx K) (hX : 0 < d.NX) (hS : 1 ≤ d.S) (hN : 1 ≤ d.N) (hsk : SkewEnds d A) (hD : OffDiag d A)
    (cb : Cbs d K) (o o' : Obj d K) (junk jac0 : ℕ → ℕ → K) (var c0 c : ℕ → K) {m m' : SpJac K} (hm : Reach d A m)
    (e : constraintsLinSparse d A cb o junk jac0 var c0 m = some (c, m', o')) :
    (∀ cc < d.VAR, m'.J.cnt cc = eqNnz d cc + ineqNnz d cc ∧ m'.J.start (cc + 1) = m'.J.start cc + m'.J.cnt cc) ∧
      m'.J.nonZeros d.VAR = nnzJacobian d := by
  have hinv := hm.inv hX hS hN hsk hD
  have hle : d.NG ≤ d.NX ∨ Empty m.Ji := by
    by_contra h
    have h := not_or.1 h
    rw [update_asserts d A hX hS hN hD cb o junk jac0 var c0 hinv h.2 (by omega)] at e
    exact absurd e (by simp)
  obtain ⟨_, m2, _, e2, _, _, ⟨M, hM⟩, _, h, _⟩ := step_spec d A hX hS hN hsk hD cb o junk jac0 var c0 (fun _ _ => 0) hinv hle
  rw [e] at e2
  simp only [Option.some.injEq, Prod.mk.injEq] at e2
  obtain ⟨-, rfl, -⟩ := e2
  refine ⟨fun cc hcc => ⟨h cc hcc, ?_⟩, hM.nonZeros hS hN⟩
  rw [hM.start _ (by omega), hM.start _ (by omega), Finset.sum_range_succ, h cc hcc]

/-! ### C44 -/

/-- **C44 (negative).** With fewer path constraints than states (and at least two states) a repeated evaluation leaves the contents of an
uninitialised temporary in the Jacobian: whatever value that memory holds appears as the derivative of the first path constraint of every
node with respect to the second state of the node. -/
theorem ineq_update_uninitialised (d : Dims) (A : Approx K) (hX : 1 < d.NX) (hS : 1 ≤ d.S) (hN : 1 ≤ d.N) (hsk : SkewEnds d A) (hD : OffDiag d A)
    (hG : 0 < d.NG) (hlt : d.NG < d.NX) (cb : Cbs d K) (o : Obj d K) (junk : ℕ → ℕ → K) (var c0 : ℕ → K) {m : SpJac K} (hm : Reach d A m)
    (hE : ¬ First m) (v : K) :
    ∃ c m' o', constraintsLinSparse d A cb o junk (fun _ _ => v) var c0 m = some (c, m', o') ∧
      ∀ k < d.NN, m'.J.coeff (d.NEQ + k * d.NG) (k * d.NX + 1) = v := by
  have hinv := hm.inv (by omega) hS hN hsk hD
  have hEi : ¬ Empty m.Ji := by
    rcases hinv with h | ⟨_, M, _, _, h, _⟩
    · exact absurd h hE
    · intro hh
      have hp := sum_ineq_pos d (by omega) hG
      have := h.nonZeros
      rw [hh.nonZeros] at this
      omega
  obtain ⟨c, m', o', e, -, -, -, -, -, -, -, -, -, h⟩ := step_spec d A (by omega) hS hN hsk hD cb o junk (fun _ _ => v) var c0 (fun _ _ => 0) hinv
    (Or.inl (by omega))
  refine ⟨c, m', o', e, fun k hk => ?_⟩
  have hx := xIdx_lt d hk hX
  have hrow : k * d.NG < d.NINEQ := by
    have := blk_le hG hk
    unfold Dims.NINEQ; rw [Nat.mul_comm d.NG]; omega
  have h0 : rowPat d d.NG (k * d.NX + 1) (k * d.NG) = hitB d k (k * d.NX + 1) := rowPat_at d hk hG (k * d.NX + 1)
  rw [h hEi (by omega) (k * d.NG) hrow (k * d.NX + 1) (by unfold Dims.VAR; omega) (by rw [h0, hitB_x d hk hk hX]; simp)]
  unfold ineqCopied jacT
  rw [if_pos hx, blk_mod k hX, Nat.mul_mod_left, Nat.one_mul, Nat.add_zero, Nat.mod_eq_of_lt hlt, if_neg (by omega)]

/-- **C44 (negative).** With more path constraints than states the repeated evaluation writes rows that the temporary does not have. -/
theorem ineq_update_out_of_range (d : Dims) (A : Approx K) (hX : 0 < d.NX) (hS : 1 ≤ d.S) (hN : 1 ≤ d.N) (hsk : SkewEnds d A) (hD : OffDiag d A)
    (hlt : d.NX < d.NG) (cb : Cbs d K) (o : Obj d K) (junk jac0 : ℕ → ℕ → K) (var c0 : ℕ → K) {m : SpJac K} (hm : Reach d A m)
    (hE : ¬ First m) : constraintsLinSparse d A cb o junk jac0 var c0 m = none := by
  have hinv := hm.inv hX hS hN hsk hD
  refine update_asserts d A hX hS hN hD cb o junk jac0 var c0 hinv ?_ hlt
  rcases hinv with h | ⟨_, M, _, _, h, _⟩
  · exact absurd h hE
  · intro hh
    have hp := sum_ineq_pos d hX (by omega)
    have := h.nonZeros
    rw [hh.nonZeros] at this
    omega

/-- The hypotheses of the two theorems above can be met: after the first call the object is in such a state. -/
theorem reach_after_first (d : Dims) (A : Approx K) (hX : 0 < d.NX) (hS : 1 ≤ d.S) (hN : 1 ≤ d.N) (hsk : SkewEnds d A) (hD : OffDiag d A)
    (cb : Cbs d K) (o : Obj d K) : ∃ m : SpJac K, Reach d A m ∧ ¬ First m := by
  set E : Csc K := ⟨fun _ => 0, fun _ => 0, fun _ => 0, fun _ => 0⟩
  have hE : Empty E := ⟨fun _ => rfl, fun _ => rfl⟩
  obtain ⟨c, m', o', e, _, h, _⟩ := step_spec d A hX hS hN hsk hD cb o (fun _ _ => 0) (fun _ _ => 0) (fun _ => 0) (fun _ => 0) (fun _ _ => 0)
    (m := ⟨E, E, E⟩) (Or.inl ⟨hE, hE, hE⟩) (Or.inr hE)
  exact ⟨m', Reach.step cb o o' _ _ _ _ _ (Reach.init hE hE hE) e, fun hf => h hf.2.2⟩

/-! ### A concrete run -/

/-- Two segments of order one, one of everything. -/
def dims3 : Dims := ⟨1, 1, 1, 1, 2, 1⟩
instance : NeZero dims3.M := ⟨by decide⟩
/-- Order one collocation on the nodes 1 and -1. -/
def approx3 : Approx ℚ := ⟨fun _ j => if j = 0 then 1/2 else -1/2, fun i => if i = 0 then 1 else -1, fun _ => 1⟩
/-- Dynamics `x u + p`, path constraint `x + 2 u`. -/
def cbs3 : Cbs dims3 ℚ where
  dyn _ _ := fun y => y
  dynAD z _ _ _ := ⟨z 0 * z 1 + z 2, fun i => if i.val = 0 then z 1 else if i.val = 1 then z 0 else 1⟩
  dynAD2 _ _ y := y
  ineq _ _ y := y
  ineqAD z _ _ _ := ⟨z 0 + 2 * z 1, fun i => if i.val = 0 then 1 else if i.val = 1 then 2 else 0⟩
  ineqAD2 _ _ y := y
  lag _ _ y := y
  lagAD _ _ y := y
  lagAD2 _ _ y := y
  mayer _ _ y := y
  mayerAD _ _ y := y
  mayerAD2 _ _ y := y
/-- Horizon of length four. -/
def obj3 : Obj dims3 ℚ := ⟨0, 4, fun k => k, fun _ => ⟨0, fun _ => 0⟩, fun _ => ⟨0, fun _ => 0⟩, ⟨0, fun _ => 0⟩, ⟨⟨0, fun _ => 0⟩, fun _ => ⟨0, fun _ => 0⟩⟩⟩
/-- Matrices just allocated. -/
def empty3 : SpJac ℚ := ⟨⟨fun _ => 0, fun _ => 0, fun _ => 0, fun _ => 0⟩, ⟨fun _ => 0, fun _ => 0, fun _ => 0, fun _ => 0⟩, ⟨fun _ => 0, fun _ => 0, fun _ => 0, fun _ => 0⟩⟩

example : SkewEnds dims3 approx3 ∧ OffDiag dims3 approx3 := by
  refine ⟨fun l hl => ?_, fun i hi j hj _ => ?_⟩
  · have : l = 0 ∨ l = 1 := by have : dims3.N = 1 := rfl; omega
    rcases this with rfl | rfl <;> decide +kernel
  · show (if j = 0 then (1 / 2 : ℚ) else -1 / 2) ≠ 0
    split_ifs <;> norm_num

/-- The first call, at the point `(0, 1, ..., 6)`: column of the state of the middle node, where the segments meet. -/
example : ((constraintsLinSparse dims3 approx3 cbs3 obj3 (fun _ _ => 0) (fun _ _ => 7) (fun i => i) (fun _ => 0) empty3).map fun s => s.2.1.J.col 1)
    = some [(0, (-1 : ℚ) / 2), (1, -7 / 2), (2, 1 / 2), (4, 1)] := by decide +kernel

/-- A second call at another point, into the existing pattern. -/
example : (((constraintsLinSparse dims3 approx3 cbs3 obj3 (fun _ _ => 0) (fun _ _ => 7) (fun i => i) (fun _ => 0) empty3).bind fun s =>
    constraintsLinSparse dims3 approx3 cbs3 obj3 (fun _ _ => 0) (fun _ _ => 7) (fun i => 2 * i) (fun _ => 0) s.2.1).map fun s => s.2.1.J.col 1)
    = some [(0, (-1 : ℚ) / 2), (1, -15 / 2), (2, 1 / 2), (4, 1)] := by decide +kernel

example : (List.range dims3.VAR).map (eqNnz dims3) = [1, 3, 2, 1, 1, 1, 3] := by decide +kernel

end PolyMPC.Ocp
