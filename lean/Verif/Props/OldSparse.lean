import Verif.Lemmas.OldSparse
import Verif.Spec.OldSparse
import Verif.Props.OldColloc
import Verif.Props.OcpSparse
import Verif.Props.ChebDiag

/-!
# The older collocation class, sparse format (C224)
-/

namespace PolyMPC.OldColloc
open AD Spec Ocp Sparse Sparse.Csc

set_option linter.unusedSectionVars false
set_option linter.unusedVariables false

variable {K : Type} [Field K] [DecidableEq K]
variable (d : Dims) (A : Approx K)

/-- **C224.** The residual is the one of the dense class. -/
theorem sparse_residual (f0 : Dyn d K) (y0 y0' : ℕ → Dual (MU d) K) (hX : 0 < d.NX) (var : ℕ → K) (t0 tf : K) (v0 r0 : ℕ → K) :
    ∃ g, (SpOde.mk0 d A f0 y0).eval d var t0 tf v0 r0 = some g ∧
      ∀ r < d.VARX, g r = (Ode.mk0 d A f0 y0').eval d var t0 tf v0 r0 r := by
  refine ⟨_, rfl, fun r hr => ?_⟩
  unfold Ode.eval
  show spMul d.VARX (diffMatCols d A) var r - _ = _
  rw [spMul_eq d A hX var hr]
  show _ - _ = _ + ∑ j ∈ Finset.range d.VARX, kronE d.NX (compositeD d A) r j * var j
  rw [sub_eq_add_neg, add_comm, neg_mul]
  rfl

/-- **C224.** An object constructed from a functor cannot be used at all: its differentiation matrix has size zero. -/
theorem sparse_from_functor (f0 f : Dyn d K) (y0 : ℕ → Dual (MU d) K) (var : ℕ → K) (t0 tf : K) (v0 r0 : ℕ → K) (J : Csc K) :
    (SpOde.mk1 d f0 f y0).eval d var t0 tf v0 r0 = none ∧ (SpOde.mk1 d f0 f y0).linearized d var t0 tf v0 J = none :=
  ⟨rfl, rfl⟩

/-- Vector and matrix of a call that has gone through. -/
theorem agrees_of_form (hX : 0 < d.NX) (hS : 1 ≤ d.S) (hN : 1 ≤ d.N) (hD : OffDiag d A) (o : SpOde d K) (hf : WritesAll o.f)
    (D : Ode d K) (hDf : D.f = o.f) (hDd : D.diffMat = kronE d.NX (compositeD d A)) (hDs : D.seeded = true) (a : LinCall K) {J' : Csc K}
    (h : SpForm d A (fun k b i => -tScale d a.t0 a.tf * derAt (spY d o a.var (k + 1) b) i) J') :
    AgreesDense d D a (J', fun i => spMul d.VARX (diffMatCols d A) a.var i - tScale d a.t0 a.tf * spV d o a.var a.v0 d.NN i) := by
  intro v0
  have hY : ∀ k < d.NN, ∀ old, ∀ i < d.NX, o.f.ad (nodeXU d a.var k) (par d a.var) old i
      = o.f.ad (nodeXU d a.var k) (par d a.var) (fun _ => ⟨0, fun _ => 0⟩) i := fun k _ old i hi => hf _ _ _ _ i hi
  obtain ⟨M, b, D', e, -, -, -, hh⟩ := linearized_closed d D hDs a.var a.t0 a.tf v0
    (fun k i => o.f.ad (nodeXU d a.var k) (par d a.var) (fun _ => ⟨0, fun _ => 0⟩) i) (by rw [hDf]; exact hY)
  refine ⟨M, b, D', e, fun q hq => ?_⟩
  obtain ⟨k, i, hk, hi, rfl⟩ := blk_split (n := d.NX) (m := d.NN) (r := q) hq
  have hyk := spY_eq d o a.var _ hY hk hi
  obtain ⟨hb, hM⟩ := hh k hk i hi
  refine ⟨?_, fun c hc => ?_⟩
  · show spMul d.VARX (diffMatCols d A) a.var (k * d.NX + i) - tScale d a.t0 a.tf * spV d o a.var a.v0 d.NN (k * d.NX + i) = _
    rw [hb, spMul_eq d A hX a.var hq, spV_eq d o a.var a.v0 hk hi, hyk, hDd]
  · show J'.coeff (k * d.NX + i) c = _
    rw [h.coeff hS hN hD hk hi hc, hM c, hDd, hyk]

/-- `sparseView()` keeps the whole diagonal iff no diagonal entry of the differentiation matrix is zero (with one segment it is not used). -/
theorem keep_diag_iff (hS : 1 ≤ d.S) (hN : 1 ≤ d.N) : (∀ t < d.NN, keepB d A t t = true) ↔ (d.S = 1 ∨ ∀ j ≤ d.N, A.D j j ≠ 0) := by
  have key : ∀ s j, s < d.S → j ≤ d.N → (j < d.N ∨ s + 1 = d.S) →
      (keepB d A (s * d.N + j) (s * d.N + j) = true ↔ (d.S = 1 ∨ A.D j j ≠ 0)) := by
    intro s j hs hj hjs
    unfold keepB
    rw [compositeD_closed d A hS hN hs hj hjs (node_lt d hs hj), if_pos (by omega), Nat.add_sub_cancel_left]
    have : d.S < 2 ↔ d.S = 1 := by omega
    simp [this]
  constructor
  · intro h
    by_cases h1 : d.S = 1
    · exact Or.inl h1
    · refine Or.inr fun j hj => ?_
      have hs : d.S - 1 < d.S := by omega
      exact ((key (d.S - 1) j hs hj (Or.inr (by omega))).1 (h _ (node_lt d hs hj))).resolve_left h1
  · intro h t ht
    obtain ⟨s, j, hs, hj, hjs, rfl⟩ := node_split d hS hN ht
    refine (key s j hs hj hjs).2 ?_
    rcases h with h | h
    · exact Or.inl h
    · exact Or.inr (h j hj)

/-- The number of reserved entries is positive. -/
theorem spNnz_pos (hX : 0 < d.NX) (hS : 1 ≤ d.S) (hN : 1 ≤ d.N) (hD : OffDiag d A) (hC : A.D 0 0 ≠ 0) : 0 < sumNnz d (spNnz d A) := by
  have h0 : 0 < d.NN := by unfold Dims.NN; omega
  have hx := xIdx_lt d h0 hX
  have h1 := spNnz_rank d A hX hS hN hD h0 hX
  rw [keepB_zero d A hS hN hC] at h1
  have hr := spNnz_room d A hX hS hN hD hC (c := 0 * d.NX + 0) (by rw [d0_VAR]; omega)
  have e := rank_rowPat (d0 d) (n := d.NX) (c := 0 * d.NX + 0) (by rw [d0_VAR]; omega)
  rw [if_pos (show 0 * d.NX + 0 < (d0 d).VARX + (d0 d).VARU by show _ < d.VARX + d.VARU; omega)] at e
  have hle : d.NX ≤ spNnz d A (0 * d.NX + 0) := le_trans (le_of_eq e.symm) hr
  unfold sumNnz
  refine Finset.sum_pos' (fun _ _ => Nat.zero_le _) ⟨0 * d.NX + 0, Finset.mem_range.2 (by unfold Dims.VAR; omega), by omega⟩

/-- A further call with a matrix from an earlier one. -/
theorem again (hX : 0 < d.NX) (hS : 1 ≤ d.S) (hN : 1 ≤ d.N) (hD : OffDiag d A) (o : SpOde d K) (hs : o.seeded = true)
    (hc : o.cols = some (diffMatCols d A)) (hn : o.nnz = spNnz d A) (a : LinCall K) {J : Csc K} {W : ℕ → ℕ → ℕ → K} (hJ : SpForm d A W J) :
    o.linearized d a.var a.t0 a.tf a.v0 J = if ∀ t < d.NN, keepB d A t t = true then o.update d (diffMatCols d A) a.var a.t0 a.tf a.v0 J else none := by
  obtain ⟨h1, h2⟩ := nonZeros_iff d A hX hS hN hD hJ
  unfold SpOde.linearized
  rw [if_pos hs, hc, hn]
  dsimp only
  by_cases hk : ∀ t < d.NN, keepB d A t t = true
  · rw [if_neg (fun h => h (h1.2 hk)), if_pos hk]
  · rw [if_pos (fun h => hk (h1.1 h)), if_pos (by omega), if_neg hk]

/-- The first call. -/
theorem first (hX : 0 < d.NX) (hS : 1 ≤ d.S) (hN : 1 ≤ d.N) (hD : OffDiag d A) (hC : A.D 0 0 ≠ 0) (o : SpOde d K) (hs : o.seeded = true)
    (hc : o.cols = some (diffMatCols d A)) (hn : o.nnz = spNnz d A) (a : LinCall K) {J : Csc K} (hJ : J.nonZeros d.VAR = 0) :
    o.linearized d a.var a.t0 a.tf a.v0 J = o.fresh d (diffMatCols d A) a.var a.t0 a.tf a.v0 J := by
  have hp := spNnz_pos d A hX hS hN hD hC
  unfold SpOde.linearized
  rw [if_pos hs, hc, hn]
  dsimp only
  rw [if_pos (by omega), if_neg (by omega)]

/-- Calls with a matrix from an earlier one, if the diagonal has been kept. -/
theorem session_form (hX : 0 < d.NX) (hS : 1 ≤ d.S) (hN : 1 ≤ d.N) (hD : OffDiag d A) (hk : ∀ t < d.NN, keepB d A t t = true) (D : Ode d K)
    (hDd : D.diffMat = kronE d.NX (compositeD d A)) (hDs : D.seeded = true) (hf : WritesAll D.f) (as : List (LinCall K)) :
    ∀ (o : SpOde d K) (J : Csc K) (W : ℕ → ℕ → ℕ → K), o.seeded = true → o.cols = some (diffMatCols d A) → o.nnz = spNnz d A → D.f = o.f →
      SpForm d A W J → ∃ l, linSession d o J as = some l ∧ List.Forall₂ (AgreesDense d D) as l := by
  induction as with
  | nil => exact fun o J W _ _ _ _ _ => ⟨[], rfl, List.Forall₂.nil⟩
  | cons a as ih =>
    intro o J W hs hc hn hDf hJ
    have e := again d A hX hS hN hD o hs hc hn a hJ
    rw [if_pos hk] at e
    obtain ⟨J', e', hJ'⟩ := update_form d A hX hS hN o a.var a.t0 a.tf a.v0 hJ
    obtain ⟨l, el, hl⟩ := ih { o with adY := spY d o a.var d.NN } J' _ hs hc hn hDf hJ'
    refine ⟨_ :: l, ?_, List.Forall₂.cons (agrees_of_form d A hX hS hN hD o (hDf ▸ hf) D hDf hDd hDs a hJ') hl⟩
    unfold linSession
    rw [e, e']
    show (linSession d _ J' as).map _ = _
    rw [el]
    rfl

variable (f0 : Dyn d K) (y0 y0' : ℕ → Dual (MU d) K)

/-- **C224.** A first call with a matrix without entries: matrix and vector are those of the dense class. -/
theorem sparse_first_call (hX : 0 < d.NX) (hS : 1 ≤ d.S) (hN : 1 ≤ d.N) (hD : OffDiag d A) (hC : A.D 0 0 ≠ 0) (hf : WritesAll f0)
    (a : LinCall K) (J : Csc K) (hJ : J.nonZeros d.VAR = 0) :
    ∃ r, linSession d (SpOde.mk0 d A f0 y0) J [a] = some [r] ∧ AgreesDense d (Ode.mk0 d A f0 y0') a r := by
  obtain ⟨J', e', hJ'⟩ := fresh_form d A hX hS hN hD hC (SpOde.mk0 d A f0 y0) rfl a.var a.t0 a.tf a.v0 J
  refine ⟨_, ?_, agrees_of_form d A hX hS hN hD (SpOde.mk0 d A f0 y0) hf (Ode.mk0 d A f0 y0') rfl rfl rfl a hJ'⟩
  unfold linSession
  rw [first d A hX hS hN hD hC _ rfl rfl rfl a hJ, e']
  rfl

/-- **C224.** Any number of calls with the same object and the same matrix, with one segment or a differentiation matrix without zeros on its
diagonal: at every call matrix and vector are those of the dense class. -/
theorem sparse_session (hX : 0 < d.NX) (hS : 1 ≤ d.S) (hN : 1 ≤ d.N) (hD : OffDiag d A) (hC : A.D 0 0 ≠ 0) (hf : WritesAll f0)
    (hk : d.S = 1 ∨ ∀ j ≤ d.N, A.D j j ≠ 0) (as : List (LinCall K)) (J : Csc K) (hJ : J.nonZeros d.VAR = 0) :
    ∃ l, linSession d (SpOde.mk0 d A f0 y0) J as = some l ∧ List.Forall₂ (AgreesDense d (Ode.mk0 d A f0 y0')) as l := by
  cases as with
  | nil => exact ⟨[], rfl, List.Forall₂.nil⟩
  | cons a as =>
    obtain ⟨J', e', hJ'⟩ := fresh_form d A hX hS hN hD hC (SpOde.mk0 d A f0 y0) rfl a.var a.t0 a.tf a.v0 J
    obtain ⟨l, el, hl⟩ := session_form d A hX hS hN hD ((keep_diag_iff d A hS hN).2 hk) (Ode.mk0 d A f0 y0') rfl rfl hf as
      { SpOde.mk0 d A f0 y0 with adY := spY d (SpOde.mk0 d A f0 y0) a.var d.NN } J' _ rfl rfl rfl rfl hJ'
    refine ⟨_ :: l, ?_, List.Forall₂.cons (agrees_of_form d A hX hS hN hD (SpOde.mk0 d A f0 y0) hf (Ode.mk0 d A f0 y0') rfl rfl rfl a hJ') hl⟩
    unfold linSession
    rw [first d A hX hS hN hD hC _ rfl rfl rfl a hJ, e']
    show (linSession d _ J' as).map _ = _
    rw [el]
    rfl

/-- **C224.** With two or more segments and a zero on the diagonal the second call fails, so the matrix can be filled only once. -/
theorem sparse_reuse_iff (hX : 0 < d.NX) (hS : 1 ≤ d.S) (hN : 1 ≤ d.N) (hD : OffDiag d A) (hC : A.D 0 0 ≠ 0) (hf : WritesAll f0)
    (a b : LinCall K) (as : List (LinCall K)) (J : Csc K) (hJ : J.nonZeros d.VAR = 0) :
    (linSession d (SpOde.mk0 d A f0 y0) J (a :: b :: as)).isSome ↔ (d.S = 1 ∨ ∀ j ≤ d.N, A.D j j ≠ 0) := by
  constructor
  · intro h
    by_contra hk
    obtain ⟨J', e', hJ'⟩ := fresh_form d A hX hS hN hD hC (SpOde.mk0 d A f0 y0) rfl a.var a.t0 a.tf a.v0 J
    have e2 := again d A hX hS hN hD { SpOde.mk0 d A f0 y0 with adY := spY d (SpOde.mk0 d A f0 y0) a.var d.NN } rfl rfl rfl b hJ'
    rw [if_neg (fun h => hk ((keep_diag_iff d A hS hN).1 h))] at e2
    have : linSession d (SpOde.mk0 d A f0 y0) J (a :: b :: as) = none := by
      unfold linSession
      rw [first d A hX hS hN hD hC _ rfl rfl rfl a hJ, e']
      show (linSession d _ J' (b :: as)).map _ = none
      unfold linSession
      rw [e2]
      rfl
    rw [this] at h
    exact absurd h (by simp)
  · intro hk
    obtain ⟨l, e, -⟩ := sparse_session d A f0 y0 y0 hX hS hN hD hC hf hk (a :: b :: as) J hJ
    rw [e]
    rfl

/-- The diagonal of the matrix of the library. -/
theorem cheb_diag_iff (hN : 1 ≤ d.N) : (∀ j ≤ d.N, (chebApprox d.N).D j j ≠ 0) ↔ d.N % 2 = 1 := by
  have key : ∀ j ≤ d.N, ((chebApprox d.N).D j j = 0 ↔ 2 * j = d.N) := fun j hj => by
    rw [show (chebApprox d.N).D j j = _ from cheb_D d.N ⟨j, by omega⟩ ⟨j, by omega⟩]
    exact Cheb.diag_zero_iff hN _
  constructor
  · intro h
    by_contra h2
    exact h (d.N / 2) (by omega) ((key _ (by omega)).2 (by omega))
  · intro h j hj h0
    have := (key j hj).1 h0
    omega

theorem cheb_corner (hN : 1 ≤ d.N) : (chebApprox d.N).D 0 0 ≠ 0 := by
  rw [show (chebApprox d.N).D 0 0 = _ from cheb_D d.N ⟨0, by omega⟩ ⟨0, by omega⟩]
  intro h
  have := (Cheb.diag_zero_iff hN (⟨0, by omega⟩ : Fin (d.N + 1))).1 h
  simp at this
  omega

open Classical in
/-- **C224** for the Chebyshev scheme of the library: a matrix can be used for a second call iff there is one segment or the order is odd, and
then every call of a session agrees with the dense class. -/
theorem sparse_chebyshev (f0 : Dyn d ℝ) (y0 y0' : ℕ → Dual (MU d) ℝ) (hX : 0 < d.NX) (hS : 1 ≤ d.S) (hN : 1 ≤ d.N) (hf : WritesAll f0)
    (a b : LinCall ℝ) (as : List (LinCall ℝ)) (J : Csc ℝ) (hJ : J.nonZeros d.VAR = 0) :
    ((linSession d (SpOde.mk0 d (chebApprox d.N) f0 y0) J (a :: b :: as)).isSome ↔ (d.S = 1 ∨ d.N % 2 = 1)) ∧
    ∀ l, linSession d (SpOde.mk0 d (chebApprox d.N) f0 y0) J (a :: b :: as) = some l →
      List.Forall₂ (AgreesDense d (Ode.mk0 d (chebApprox d.N) f0 y0')) (a :: b :: as) l := by
  have h := sparse_reuse_iff d (chebApprox d.N) f0 y0 hX hS hN (cheb_offDiag d) (cheb_corner d hN) hf a b as J hJ
  refine ⟨h.trans (by rw [cheb_diag_iff d hN]), fun l hl => ?_⟩
  obtain ⟨l', e, hl'⟩ := sparse_session d (chebApprox d.N) f0 y0 y0' hX hS hN (cheb_offDiag d) (cheb_corner d hN) hf
    (h.1 (by rw [hl]; rfl)) (a :: b :: as) J hJ
  rw [hl] at e
  injection e with e
  rw [e]
  exact hl'

open Classical in
/-- Two segments of order 2 (a second call fails) and of order 3 (it does not), `x' = x u`. -/
example (a b : LinCall ℝ) :
    let f : ∀ N, Dyn ⟨1, 1, 0, 0, 2, N⟩ ℝ := fun N => ⟨fun z _ _ _ => z ⟨0, Nat.zero_lt_two⟩ * z ⟨1, Nat.one_lt_two⟩,
      fun z _ _ _ => ⟨z ⟨0, Nat.zero_lt_two⟩ * z ⟨1, Nat.one_lt_two⟩, fun i => if i.val = 0 then z ⟨1, Nat.one_lt_two⟩ else z ⟨0, Nat.zero_lt_two⟩⟩⟩
    let J : Csc ℝ := ⟨fun _ => 0, fun _ => 0, fun _ => 0, fun _ => 0⟩
    linSession _ (SpOde.mk0 _ (chebApprox 2) (f 2) fun _ => ⟨0, fun _ => 0⟩) J [a, b] = none ∧
      (linSession _ (SpOde.mk0 _ (chebApprox 3) (f 3) fun _ => ⟨0, fun _ => 0⟩) J [a, b]).isSome := by
  intro f J
  have hJ : ∀ n, J.nonZeros n = 0 := fun n => Finset.sum_eq_zero fun _ _ => rfl
  have h2 := (sparse_chebyshev ⟨1, 1, 0, 0, 2, 2⟩ (f 2) (fun _ => ⟨0, fun _ => 0⟩) (fun _ => ⟨0, fun _ => 0⟩) (by decide) (by decide) (by decide)
    (fun _ _ _ _ _ _ => rfl) a b [] J (hJ _)).1
  have h3 := (sparse_chebyshev ⟨1, 1, 0, 0, 2, 3⟩ (f 3) (fun _ => ⟨0, fun _ => 0⟩) (fun _ => ⟨0, fun _ => 0⟩) (by decide) (by decide) (by decide)
    (fun _ _ _ _ _ _ => rfl) a b [] J (hJ _)).1
  refine ⟨?_, h3.2 (Or.inr rfl)⟩
  refine Option.not_isSome_iff_eq_none.1 fun h => ?_
  exact absurd (h2.1 h) (by decide)

end PolyMPC.OldColloc
