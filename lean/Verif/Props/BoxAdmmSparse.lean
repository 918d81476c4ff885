import Verif.Props.AdmmSparseReuse
import Verif.Props.BoxAdmmRefines

/-!
# boxADMM on sparse data (C110, C111, C112)

As for ADMM: the sparse solver computes what the dense solver computes, if `reuse_pattern` is set only under its conditions. If the Hessian
does not store its diagonal, an update in place shifts the values of the column; with a decomposition that reads both triangles it leaves
the upper right block as it was.
-/

namespace PolyMPC.AdmmSparse
open Matrix PolyMPC.Spec PolyMPC.QPBase PolyMPC.Sparse PolyMPC.Sparse.Csc

set_option linter.unusedSectionVars false
set_option linter.unusedVariables false

variable {K : Type} [Field K] [LinearOrder K] [IsStrictOrderedRing K] {N M : ℕ}

theorem boxMatK_apply {S : Csc K} {P : ℕ → ℕ → Bool} {V : ℕ → ℕ → K} (h : Holds S (N + M) (N + M) P V) (i j : BoxAdmm.KktIdx N M) :
    boxMatK N M S i j = if P (BoxAdmm.kktPos j) (BoxAdmm.kktPos i) then V (BoxAdmm.kktPos i) (BoxAdmm.kktPos j) else 0 := by
  refine h.coeff_eq ?_ _
  rcases j with j | b
  · show (j : ℕ) < _; omega
  · show N + (b : ℕ) < _; omega

theorem arr_val {n : ℕ} (v : Fin n → K) (i : Fin n) : arr v i = v i := by simp [arr]

/-- The blocks that the dense assembly does not write are zero. -/
structure Clean (both : Bool) (A : BoxAdmm.KktMat K N M) : Prop where
  top : both = false → A.toBlocks₁₂ = 0
  corner : ∀ a b, a ≠ b → A (Sum.inr a) (Sum.inr b) = 0

/-- The assembled matrix. -/
theorem boxMatK_eq {H A S : Csc K} {PH PA : ℕ → ℕ → Bool} {MH MA : ℕ → ℕ → K} {both : Bool} (hH : Holds H N N PH MH) (hA : Holds A N M PA MA)
    (sigma : K) (b : Fin N → K) (d : Fin M → K)
    (hS : Holds S (N + M) (N + M) (kktPat both N PH PA) (kktVal N PH MH MA (fun i => sigma + arr b i) (arr d)))
    (old : BoxAdmm.KktMat K N M) (hold : Clean both old) (Hm : Matrix (Fin N) (Fin N) K) (Am : Matrix (Fin M) (Fin N) K)
    (hHm : ∀ i j, Hm i j = H.coeff i j) (hAm : ∀ i j, Am i j = A.coeff i j) :
    boxMatK N M S = BoxAdmm.constructKkt both sigma Hm Am b d old := by
  funext i j
  rw [boxMatK_apply hS]
  unfold BoxAdmm.constructKkt
  have hl : ∀ i : Fin N, BoxAdmm.kktPos (Sum.inl i : BoxAdmm.KktIdx N M) = i := fun _ => rfl
  have hr : ∀ i : Fin M, BoxAdmm.kktPos (Sum.inr i : BoxAdmm.KktIdx N M) = N + i := fun _ => rfl
  rcases i with i | a <;> rcases j with j | c
  · rw [hl, hl, Matrix.fromBlocks_apply₁₁]
    rw [Matrix.add_apply, Matrix.add_apply, hHm, Matrix.diagonal_apply, Matrix.diagonal_apply]
    simp only [kktPat, kktVal, i.2, j.2, if_true]
    rw [hH.coeff_eq j.2 i]
    by_cases hij : i = j
    · subst hij; simp [arr_val, add_assoc]
    · have : ¬ (i : ℕ) = j := fun h => hij (Fin.ext h)
      by_cases hp : PH j i = true
      · simp [hp, hij, this]
      · simp [hp, hij, this]
  · rw [hl, hr, Matrix.fromBlocks_apply₁₂]
    have h1 : ¬ N + (c : ℕ) < N := by omega
    have h2 : ¬ (i : ℕ) = N + c := by omega
    simp only [kktPat, kktVal, h1, if_false, Nat.add_sub_cancel_left, i.2, decide_true, Bool.and_true, h2]
    rw [show ((i : ℕ) == N + c) = false by simpa using h2, Bool.false_or]
    cases both
    · rw [hold.top rfl]; simp
    · simp only [Bool.true_and, if_true]
      rw [Matrix.transpose_apply, hAm]
      exact (hA.coeff_eq i.2 c).symm
  · rw [hl, hr, Matrix.fromBlocks_apply₂₁]
    have h1 : ¬ N + (a : ℕ) < N := by omega
    simp only [kktPat, kktVal, h1, if_false, Nat.add_sub_cancel_left, j.2, if_true]
    rw [hAm]
    exact (hA.coeff_eq j.2 a).symm
  · rw [hr, hr, Matrix.fromBlocks_apply₂₂, Matrix.of_apply]
    have h1 : ¬ N + (a : ℕ) < N := by omega
    have h2 : ¬ N + (c : ℕ) < N := by omega
    simp only [kktPat, kktVal, h1, h2, if_false, Nat.add_sub_cancel_left, decide_false, Bool.and_false, Bool.false_and, Bool.or_false]
    by_cases hac : a = c
    · subst hac
      simp [arr_val]
    · have : ¬ (a : ℕ) = c := fun h => hac (Fin.ext h)
      have h0 : old.toBlocks₂₂ a c = 0 := hold.corner a c hac
      simp [this, hac, h0]

/-- What the matrix of an object looks like after a call with matrices of the patterns `PH`, `PA`. -/
structure BoxBuilt (both : Bool) (PH PA : ℕ → ℕ → Bool) (o : BoxObj K N M) : Prop where
  k : ∃ V, Holds o.mK (N + M) (N + M) (kktPat both N PH PA) V
  eq : o.st.kkt = boxMatK N M o.mK

theorem BoxBuilt.clean {both : Bool} {PH PA : ℕ → ℕ → Bool} {o : BoxObj K N M} (h : BoxBuilt both PH PA o) : Clean both o.st.kkt := by
  obtain ⟨V, hV⟩ := h.k
  constructor
  · rintro rfl
    funext i b
    show o.st.kkt (Sum.inl i) (Sum.inr b) = 0
    rw [h.eq, boxMatK_apply hV]
    have h2 : ¬ (i : ℕ) = N + b := by omega
    simp [BoxAdmm.kktPos, kktPat, h2]
  · intro a b hab
    rw [h.eq, boxMatK_apply hV]
    have : ¬ (a : ℕ) = b := fun h => hab (Fin.ext h)
    simp [BoxAdmm.kktPos, kktPat, this]

theorem BoxBuilt.of {both : Bool} {PH PA : ℕ → ℕ → Bool} {o : BoxObj K N M} (h : BoxBuilt both PH PA o) {s : BoxAdmm.State K N M}
    (hs : s.kkt = o.st.kkt) : BoxBuilt both PH PA { o with st := s } := ⟨h.k, hs.trans h.eq⟩

/-- The hypotheses of one call. -/
structure BoxFits (reuse both : Bool) (PH PA : ℕ → ℕ → Bool) (p : SparseQP K N M) (old : BoxObj K N M) : Prop where
  H : ∃ MH, Holds p.H N N PH MH
  A : ∃ MA, Holds p.A N M PA MA
  reuse : reuse = true → both = false ∧ BoxBuilt both PH PA old ∧ ∀ c < N, PH c c = true
  clean : Clean both old.st.kkt

/-- Assembly. -/
theorem boxSetup_eq {reuse both : Bool} {cfg : Settings K} {p : SparseQP K N M} {xg : Fin N → K} {yg : Fin M ⊕ Fin N → K} {old : BoxObj K N M}
    {PH PA : ℕ → ℕ → Bool} (h : BoxFits reuse both PH PA p old) :
    ∃ o, boxSetup reuse both cfg p xg yg old = some o ∧ o.st = BoxAdmm.setup both cfg p.toQP xg yg old.st ∧ BoxBuilt both PH PA o := by
  obtain ⟨MH, hH⟩ := h.H
  obtain ⟨MA, hA⟩ := h.A
  set s2 := BoxAdmm.rhoVecUpdate cfg.rho { old.st with
    x := xg, y := yg, z := p.toQP.A *ᵥ xg, q := xg
    constrType := parseConstr p.Alb p.Aub
    boxType := parseBox p.xlb p.xub } with hs2
  have h2 : ∃ mK, boxKkt reuse both N M cfg.sigma (arr s2.rhoVecBox) (arr s2.rhoInvVec) p.H p.A old.mK = some mK ∧
      Holds mK (N + M) (N + M) (kktPat both N PH PA)
        (kktVal N PH MH MA (fun i => cfg.sigma + arr s2.rhoVecBox i) (arr s2.rhoInvVec)) := by
    unfold boxKkt
    cases hr : reuse
    · obtain ⟨S, e, _, hS⟩ := kktFresh_holds hH hA both old.mK (fun i => cfg.sigma + arr s2.rhoVecBox i) (arr s2.rhoInvVec)
      exact ⟨S, by simpa using e, hS⟩
    · obtain ⟨hb, hB, hd⟩ := h.reuse hr
      subst hb
      obtain ⟨V, hV⟩ := hB.k
      obtain ⟨S1, e1, _, _, h1⟩ := sameLoop_diag hH hA hV hd
      obtain ⟨S2, e2, _, h2⟩ := addDiag_holds h1 fun _ => cfg.sigma
      obtain ⟨S3, e3, _, h3⟩ := addDiag_holds h2 (arr s2.rhoVecBox)
      obtain ⟨S4, e4, _, h4⟩ := setDiag_holds h3 (arr s2.rhoInvVec)
      refine ⟨S4, ?_, h4.congr fun c hc r hr' hp => ?_⟩
      · simp [kktSame_eq, e1, e2, e3, e4]
      · unfold kktVal
        by_cases hcN : c < N
        · rw [if_neg (by omega), if_pos hcN, if_pos hcN]
          by_cases hrN : r < N
          · have hPH : PH c r = true := by
              unfold kktPat at hp
              rw [if_pos hcN, if_pos hrN, Bool.or_eq_true, beq_iff_eq] at hp
              rcases hp with hp | rfl
              · exact hp
              · exact hd r hcN
            rw [if_pos hrN, if_pos hrN, if_pos hPH]
            by_cases hrc : r = c
            · rw [if_pos ⟨hcN, hrc⟩, if_pos ⟨hcN, hrc⟩, if_pos hrc, add_assoc]
            · rw [if_neg (fun hh => hrc hh.2), if_neg (fun hh => hrc hh.2), if_neg hrc, add_zero]
          · rw [if_neg (by omega), if_neg (by omega), if_neg hrN, if_neg hrN]
        · unfold kktPat at hp
          rw [if_neg hcN] at hp
          have hrc : r = c := by simpa using hp
          rw [if_pos (show N ≤ c ∧ r = c from ⟨by omega, hrc⟩), if_neg hcN, if_pos hrc]
  obtain ⟨mK, eK, hmK⟩ := h2
  have hmat := boxMatK_eq hH hA cfg.sigma s2.rhoVecBox s2.rhoInvVec hmK old.st.kkt h.clean p.toQP.H p.toQP.A (fun _ _ => rfl) fun _ _ => rfl
  refine ⟨⟨{ BoxAdmm.factorise { s2 with kkt := boxMatK N M mK } with
    info := { (BoxAdmm.factorise { s2 with kkt := boxMatK N M mK }).info with status := .UNSOLVED } }, mK⟩, ?_, ?_, ⟨⟨_, hmK⟩, rfl⟩⟩
  · unfold boxSetup
    simp only [← hs2]
    rw [eK, Option.map_some]
  · simp only [hmat]
    rw [hs2]
    rfl

/-- Change of the step size in the KKT matrix. -/
theorem boxUpdateKktRho_eq {both : Bool} {PH PA : ℕ → ℕ → Bool} {o : BoxObj K N M} (h : BoxBuilt both PH PA o) :
    ∃ o', boxUpdateKktRho o = some o' ∧ o'.st = BoxAdmm.updateKktRho o.st ∧ BoxBuilt both PH PA o' := by
  obtain ⟨V, hV⟩ := h.k
  obtain ⟨S1, e1, _, hS1⟩ := addDiag_holds hV fun i => arr o.st.rhoVecBox i - arr o.st.rhoVecBoxPrev i
  obtain ⟨S, e, _, hS⟩ := setDiag_holds hS1 (arr o.st.rhoInvVec)
  refine ⟨{ o with st := { o.st with kkt := boxMatK N M S }, mK := S }, ?_, ?_, ⟨⟨_, hS⟩, rfl⟩⟩
  · unfold boxUpdateKktRho; rw [e1, Option.bind_some, e]; rfl
  · unfold BoxAdmm.updateKktRho
    simp only
    congr 1
    have hk : o.st.kkt = boxMatK N M o.mK := h.eq
    rw [hk]
    funext i j
    rw [boxMatK_apply hS, boxMatK_apply hV]
    have hl : ∀ i : Fin N, BoxAdmm.kktPos (Sum.inl i : BoxAdmm.KktIdx N M) = i := fun _ => rfl
    have hr : ∀ i : Fin M, BoxAdmm.kktPos (Sum.inr i : BoxAdmm.KktIdx N M) = N + i := fun _ => rfl
    rcases i with i | a <;> rcases j with j | b
    · rw [hl, hl]
      show _ = if i = j then _ else _
      rw [if_neg (show ¬ (N ≤ (j : ℕ) ∧ (i : ℕ) = j) by omega)]
      by_cases hij : i = j
      · subst hij
        rw [if_pos (rfl : i = i), kktPat_diag, if_pos rfl, if_pos rfl, if_pos ⟨i.2, rfl⟩, arr_val, arr_val]
      · have : ¬ (i : ℕ) = j := fun h => hij (Fin.ext h)
        rw [if_neg hij, if_neg (fun hh : (j : ℕ) < N ∧ _ => this hh.2)]
    · rw [hl, hr]
      show _ = if _ then _ else _
      rw [if_neg (show ¬ (N ≤ N + (b : ℕ) ∧ (i : ℕ) = N + b) by omega), if_neg (show ¬ (N + (b : ℕ) < N ∧ (i : ℕ) = N + b) by omega)]
    · rw [hl, hr]
      show _ = if _ then _ else _
      rw [if_neg (show ¬ (N ≤ (j : ℕ) ∧ N + (a : ℕ) = j) by omega), if_neg (show ¬ ((j : ℕ) < N ∧ N + (a : ℕ) = j) by omega)]
    · rw [hr, hr]
      show _ = if a = b then _ else _
      rw [if_neg (show ¬ (N + (b : ℕ) < N ∧ N + (a : ℕ) = N + b) by omega)]
      by_cases hab : a = b
      · subst hab
        rw [if_pos (rfl : a = a), kktPat_diag, if_pos rfl, if_pos ⟨by omega, rfl⟩, Nat.add_sub_cancel_left, arr_val]
      · have : ¬ (a : ℕ) = b := fun hh => hab (Fin.ext hh)
        rw [if_neg hab, if_neg (show ¬ (N ≤ N + (b : ℕ) ∧ N + (a : ℕ) = N + b) by omega)]

theorem boxAdaptRho_eq {both : Bool} {PH PA : ℕ → ℕ → Bool} {sq : K → K} {cfg : Settings K} {o : BoxObj K N M} (h : BoxBuilt both PH PA o) :
    ∃ o', boxAdaptRho sq cfg o = some o' ∧ o'.st = BoxAdmm.adaptRho sq cfg o.st ∧ BoxBuilt both PH PA o' := by
  unfold boxAdaptRho BoxAdmm.adaptRho
  simp only
  split_ifs with hc
  · obtain ⟨o', e, hs, hB⟩ := boxUpdateKktRho_eq (o := { o with st := (BoxAdmm.rhoVecUpdate (BoxAdmm.clampRho (BoxAdmm.estimateRho sq o.st o.st.rho))
      { o.st with info := { o.st.info with rhoEstimate := BoxAdmm.clampRho (BoxAdmm.estimateRho sq o.st o.st.rho) }, rhoVecBoxPrev := o.st.rhoVecBox }) })
      (h.of rfl)
    refine ⟨{ o' with st := BoxAdmm.factorise o'.st }, by rw [e]; rfl, ?_, hB.of rfl⟩
    simp only [hs]
  · exact ⟨_, rfl, rfl, h.of rfl⟩

/-- One result of a pass matches another. -/
def BoxMatch (both : Bool) (PH PA : ℕ → ℕ → Bool) : Admm.StepResult (BoxObj K N M) → Admm.StepResult (BoxAdmm.State K N M) → Prop
  | .ub, .ub => True
  | .brk o, .brk s => o.st = s ∧ BoxBuilt both PH PA o
  | .cont o, .cont s => o.st = s ∧ BoxBuilt both PH PA o
  | _, _ => False

section
variable {reuse both : Bool} {lin : BoxAdmm.KktMat K N M → (BoxAdmm.KktIdx N M → K) → (BoxAdmm.KktIdx N M → K)} {sq : K → K} {cfg : Settings K}
  {p : SparseQP K N M} {PH PA : ℕ → ℕ → Bool}

theorem boxBody_match {iter : ℤ} {o : BoxObj K N M} (h : BoxBuilt both PH PA o) :
    BoxMatch both PH PA (boxBody lin sq cfg p iter o) (BoxAdmm.body lin sq cfg p.toQP iter o.st) := by
  unfold boxBody BoxAdmm.body
  simp only
  have hk : ∀ b : Bool, (if b then BoxAdmm.residualsUpdate p.toQP (BoxAdmm.admmUpdate lin cfg p.toQP o.st) else BoxAdmm.admmUpdate lin cfg p.toQP o.st).kkt =
      o.st.kkt := fun b => by cases b <;> rfl
  set st2 := (if BoxAdmm.checkNow cfg iter then BoxAdmm.residualsUpdate p.toQP (BoxAdmm.admmUpdate lin cfg p.toQP o.st)
    else BoxAdmm.admmUpdate lin cfg p.toQP o.st) with hst2
  have h2 : st2.kkt = o.st.kkt := hk _
  by_cases c1 : (BoxAdmm.checkNow cfg iter && BoxAdmm.terminationCriteria cfg st2) = true
  · rw [if_pos c1, if_pos c1]
    exact ⟨rfl, h.of h2⟩
  · rw [if_neg c1, if_neg c1]
    by_cases c2 : cfg.adaptiveRho = true
    · rw [if_pos c2, if_pos c2]
      by_cases c3 : cfg.adaptiveRhoInterval = 0
      · rw [if_pos c3, if_pos c3]; trivial
      · rw [if_neg c3, if_neg c3]
        by_cases c4 : iter.tmod cfg.adaptiveRhoInterval = 0
        · rw [if_pos c4, if_pos c4]
          have h3 : (if BoxAdmm.checkNow cfg iter then st2 else BoxAdmm.residualsUpdate p.toQP st2).kkt = o.st.kkt := by
            split_ifs
            · exact h2
            · exact h2
          obtain ⟨o', e, hs, hB⟩ := boxAdaptRho_eq (sq := sq) (cfg := cfg) (h.of h3)
          rw [e]
          exact ⟨hs, hB⟩
        · rw [if_neg c4, if_neg c4]
          exact ⟨rfl, h.of h2⟩
    · rw [if_neg c2, if_neg c2]
      exact ⟨rfl, h.of h2⟩

theorem boxLoop_match (n : ℕ) (iter : ℤ) {o : BoxObj K N M} (h : BoxBuilt both PH PA o) :
    (boxLoop lin sq cfg p n iter o).map (fun r => (r.1, r.2.st)) = BoxAdmm.loop lin sq cfg p.toQP n iter o.st ∧
    ∀ r, boxLoop lin sq cfg p n iter o = some r → BoxBuilt both PH PA r.2 := by
  induction n generalizing iter o with
  | zero => exact ⟨rfl, fun r hr => by injection hr with hr; rw [← hr]; exact h⟩
  | succ n ih =>
    unfold boxLoop BoxAdmm.loop
    have hm := boxBody_match (lin := lin) (sq := sq) (cfg := cfg) (p := p) (iter := iter) h
    rcases h1 : boxBody lin sq cfg p iter o with _ | o1 | o1 <;> rcases h2 : BoxAdmm.body lin sq cfg p.toQP iter o.st with _ | s1 | s1 <;>
      rw [h1, h2] at hm
    · exact ⟨rfl, fun r hr => by simp at hr⟩
    · exact hm.elim
    · exact hm.elim
    · exact hm.elim
    · obtain ⟨rfl, hB⟩ := hm
      exact ⟨rfl, fun r hr => by injection hr with hr; rw [← hr]; exact hB⟩
    · exact hm.elim
    · exact hm.elim
    · exact hm.elim
    · obtain ⟨rfl, hB⟩ := hm
      exact ih (iter + 1) hB

/-- One call. -/
theorem boxSolve_match {xg : Fin N → K} {yg : Fin M ⊕ Fin N → K} {old : BoxObj K N M} (h : BoxFits reuse both PH PA p old) :
    (boxSolve reuse both lin sq cfg p xg yg old).map BoxObj.st = BoxAdmm.solve both lin sq cfg p.toQP xg yg old.st ∧
    ∀ o, boxSolve reuse both lin sq cfg p xg yg old = some o → BoxBuilt both PH PA o := by
  obtain ⟨o, e, hs, hB⟩ := boxSetup_eq (cfg := cfg) (xg := xg) (yg := yg) h
  obtain ⟨h1, h2⟩ := boxLoop_match (lin := lin) (sq := sq) (cfg := cfg) (p := p) cfg.maxIter.toNat 1 hB
  unfold boxSolve BoxAdmm.solve
  rw [e, Option.bind_some, ← hs, ← h1]
  rcases hl : boxLoop lin sq cfg p cfg.maxIter.toNat 1 o with _ | ⟨it, o1⟩
  · exact ⟨rfl, fun o ho => by simp at ho⟩
  · refine ⟨rfl, fun o' ho => ?_⟩
    simp only [Option.some.injEq] at ho
    rw [← ho]
    refine (h2 _ hl).of ?_
    simp only
    split_ifs <;> rfl

end

/-! ### Sequences of calls -/

/-- The calls on one sparse object. -/
def boxSparseRun (both : Bool) (lin : BoxAdmm.KktMat K N M → (BoxAdmm.KktIdx N M → K) → (BoxAdmm.KktIdx N M → K)) (sq : K → K)
    (l : List (Call K N M)) (o : BoxObj K N M) : Option (BoxObj K N M) :=
  l.foldlM (fun o c => boxSolve c.reuse both lin sq c.cfg c.p c.xg c.yg o) o

/-- The calls with the matrices written out, on one dense object. -/
def boxDenseRun (both : Bool) (lin : BoxAdmm.KktMat K N M → (BoxAdmm.KktIdx N M → K) → (BoxAdmm.KktIdx N M → K)) (sq : K → K)
    (l : List (Call K N M)) (s : BoxAdmm.State K N M) : Option (BoxAdmm.State K N M) :=
  l.foldlM (fun s c => BoxAdmm.solve both lin sq c.cfg c.p.toQP c.xg c.yg s) s

section
variable {both : Bool} {lin : BoxAdmm.KktMat K N M → (BoxAdmm.KktIdx N M → K) → (BoxAdmm.KktIdx N M → K)} {sq : K → K}

theorem BoxBuilt.congr {PH PA PH' PA' : ℕ → ℕ → Bool} {o : BoxObj K N M} (h : BoxBuilt both PH PA o) (eH : ∀ c < N, ∀ r, PH c r = PH' c r)
    (eA : ∀ c < N, ∀ r, PA c r = PA' c r) : BoxBuilt both PH' PA' o := by
  obtain ⟨V, hK⟩ := h.k
  refine ⟨⟨V, hK.congrP fun c _ r => ?_⟩, h.eq⟩
  unfold kktPat
  by_cases hc : c < N
  · simp only [hc, if_true]
    rw [eH c hc, eA c hc]
  · by_cases hr : r < N
    · simp only [hc, if_false, eA r hr]
    · simp [hc, hr]

theorem boxRun_aux (l : List (Call K N M)) : ∀ (prev : Option (SparseQP K N M)) (o : BoxObj K N M), Regular both prev l →
    (∀ q, prev = some q → BoxBuilt both (patt q.H) (patt q.A) o) → Clean both o.st.kkt →
    (boxSparseRun both lin sq l o).map BoxObj.st = boxDenseRun both lin sq l o.st := by
  induction l with
  | nil => intro prev o _ _ _; rfl
  | cons c l ih =>
    intro prev o ⟨⟨wH, wA⟩, hr, hl⟩ hB ht
    have hF : BoxFits c.reuse both (patt c.p.H) (patt c.p.A) c.p o := by
      refine ⟨⟨_, wH.holds⟩, ⟨_, wA.holds⟩, fun h => ?_, ht⟩
      obtain ⟨h1, ⟨q, rfl, hs⟩, hd⟩ := hr h
      refine ⟨h1, ?_, fun i hi => decide_eq_true (hd i hi)⟩
      exact (hB q rfl).congr (fun i hi r => (hs.patt.1 i hi r).symm) fun i hi r => (hs.patt.2 i hi r).symm
    obtain ⟨e, hb⟩ := boxSolve_match (lin := lin) (sq := sq) (cfg := c.cfg) (xg := c.xg) (yg := c.yg) hF
    unfold boxSparseRun boxDenseRun
    rw [List.foldlM_cons, List.foldlM_cons, ← e]
    rcases hs : boxSolve c.reuse both lin sq c.cfg c.p c.xg c.yg o with _ | o1
    · rfl
    · have hb1 := hb o1 hs
      exact ih (some c.p) o1 hl (fun q hq => by injection hq with hq; rw [← hq]; exact hb1) hb1.clean

/-- C110. For every regular sequence of calls on a new object the sparse solver ends in the state of the dense solver: same solution, dual
vector, residuals, number of iterations and status, and undefined for the same calls. -/
theorem box_sparse_eq_dense (l : List (Call K N M)) (hl : Regular both none l) (o : BoxObj K N M) (ho : o.st.kkt = 0) :
    (boxSparseRun both lin sq l o).map BoxObj.st = boxDenseRun both lin sq l o.st :=
  boxRun_aux l none o hl (fun q hq => by cases hq) ⟨fun _ => by rw [ho]; rfl, fun a b _ => by rw [ho]; rfl⟩

/-- The last of several calls is a call of the dense solver. -/
theorem box_sparse_last {l : List (Call K N M)} {c : Call K N M} (hl : Regular both none (l ++ [c])) {o o1 : BoxObj K N M} (ho : o.st.kkt = 0)
    (h1 : boxSparseRun both lin sq l o = some o1) :
    (boxSolve c.reuse both lin sq c.cfg c.p c.xg c.yg o1).map BoxObj.st = BoxAdmm.solve both lin sq c.cfg c.p.toQP c.xg c.yg o1.st := by
  have e := box_sparse_eq_dense (lin := lin) (sq := sq) (l ++ [c]) hl o ho
  have el := box_sparse_eq_dense (lin := lin) (sq := sq) l (regular_append hl) o ho
  unfold boxSparseRun at h1
  unfold boxSparseRun boxDenseRun at e el
  rw [h1] at el
  rw [List.foldlM_append, List.foldlM_append, h1, ← el] at e
  simpa using e

end

/-! ### A missing diagonal entry -/

/-- The values that column `c` of the KKT matrix should hold below row `c`, if the Hessian stores nothing at `(c, c)`. -/
def boxBelow (p : SparseQP K N M) (c : ℕ) : List K := ((p.H.col c).filter fun e => c ≤ e.1).map Prod.snd ++ (p.A.col c).map Prod.snd

theorem box_missing_aux {cfg : Settings K} {p : SparseQP K N M} {xg : Fin N → K} {yg : Fin M ⊕ Fin N → K} {old : BoxObj K N M}
    (hH : WF p.H N N) (hA : WF p.A N M) (hB : BoxBuilt false (patt p.H) (patt p.A) old) (c : Fin N) (hc : ¬ Stored p.H c c) :
    ∃ o, boxSetup true false cfg p xg yg old = some o ∧ o.st.kkt (Sum.inl c) (Sum.inl c) =
      (boxBelow p c).headD (old.st.kkt (Sum.inl c) (Sum.inl c)) + cfg.sigma + o.st.rhoVecBox c := by
  have hH' := hH.holds
  have hA' := hA.holds
  obtain ⟨V, hV⟩ := hB.k
  obtain ⟨S1, e1, _, _, h1⟩ := sameLoop_holds (H := p.H) (A := p.A) hV fun c hc => sameLoop_room hH' hA' false hc
  obtain ⟨S2, e2, _, h2⟩ := addDiag_holds h1 fun _ => cfg.sigma
  set s2 := BoxAdmm.rhoVecUpdate cfg.rho { old.st with
    x := xg, y := yg, z := p.toQP.A *ᵥ xg, q := xg
    constrType := parseConstr p.Alb p.Aub
    boxType := parseBox p.xlb p.xub } with hs2
  obtain ⟨S3, e3, _, h3⟩ := addDiag_holds h2 (arr s2.rhoVecBox)
  obtain ⟨S4, e4, _, h4⟩ := setDiag_holds h3 (arr s2.rhoInvVec)
  refine ⟨⟨{ BoxAdmm.factorise { s2 with kkt := boxMatK N M S4 } with
    info := { (BoxAdmm.factorise { s2 with kkt := boxMatK N M S4 }).info with status := .UNSOLVED } }, S4⟩, ?_, ?_⟩
  · unfold boxSetup
    simp only [← hs2]
    unfold boxKkt
    simp [kktSame_eq, e1, e2, e3, e4]
  · show boxMatK N M S4 (Sum.inl c) (Sum.inl c) = _ + s2.rhoVecBox c
    rw [boxMatK_apply h4, hB.eq, boxMatK_apply hV]
    have hk : BoxAdmm.kktPos (Sum.inl c : BoxAdmm.KktIdx N M) = c := rfl
    rw [hk, kktPat_diag, if_pos rfl, if_pos rfl, if_neg (show ¬ (N ≤ (c : ℕ) ∧ (c : ℕ) = c) by omega), if_pos ⟨c.2, rfl⟩, if_pos ⟨c.2, rfl⟩, arr_val]
    congr 2
    have hr : rank (kktPat false N (patt p.H) (patt p.A) c) c = rank (patt p.H c) c := by
      rw [rank_kktPat_top c.2 (le_of_lt c.2)]
      exact rank_congr fun i hi => by
        have : (i == (c : ℕ)) = false := by simp; omega
        rw [this, Bool.or_false]
    rw [hr]
    have hlen := length_filter_lt hH' c.2 (le_of_lt c.2)
    have hle : rank (patt p.H c) c ≤ p.H.cnt c := by rw [hH'.cnt c c.2]; exact rank_mono _ (le_of_lt c.2)
    have hfd := filter_eq_drop (p.H.col c) (holds_fst_pairwise hH' c.2) c
    rw [hlen] at hfd
    unfold boxBelow
    rw [hfd]
    by_cases hlt : rank (patt p.H c) c < p.H.cnt c
    · rw [if_pos ⟨c.2, hlt⟩, List.headD_eq_head?_getD, List.head?_append, List.head?_map, List.head?_drop, col_getElem?, if_pos hlt]
      rfl
    · have heq : rank (patt p.H c) c = p.H.cnt c := by omega
      have hnil : (p.H.col c).drop (rank (patt p.H c) c) = [] := List.drop_eq_nil_of_le (by simp [Csc.col]; omega)
      rw [hnil, if_neg (fun hh : (c : ℕ) < N ∧ _ => hlt hh.2), heq, Nat.sub_self, List.map_nil, List.nil_append, Nat.add_zero,
        List.headD_eq_head?_getD, List.head?_map, List.head?_eq_getElem?, col_getElem?]
      by_cases h0 : 0 < p.A.cnt c
      · rw [if_pos ⟨c.2, by omega⟩, if_pos h0]; rfl
      · rw [if_neg (show ¬ ((c : ℕ) < N ∧ p.H.cnt c < p.H.cnt c + p.A.cnt c) by omega), if_neg h0]; rfl

/-- C111. If the Hessian stores no entry at `(c, c)`, then after a call on a new object a call with `reuse_pattern`, whose matrices have the
same pattern, works with a KKT matrix that has at `(c, c)`, where the right matrix has zero plus `sigma` plus the step size, the next value
of its column plus both; if there is no other value in the column, they are added to what the last call left there. -/
theorem box_reuse_missing_diagonal {lin : BoxAdmm.KktMat K N M → (BoxAdmm.KktIdx N M → K) → (BoxAdmm.KktIdx N M → K)} {sq : K → K}
    {cfg0 cfg : Settings K} {q p : SparseQP K N M} {xg0 xg : Fin N → K} {yg0 yg : Fin M ⊕ Fin N → K} {new old : BoxObj K N M}
    (hq : WF q.H N N ∧ WF q.A N M) (hp : WF p.H N N ∧ WF p.A N M) (hs : SamePattern q p) (h0 : new.st.kkt = 0)
    (h1 : boxSolve false false lin sq cfg0 q xg0 yg0 new = some old) (c : Fin N) (hc : ¬ Stored p.H c c) :
    ∃ o, boxSetup true false cfg p xg yg old = some o ∧
      o.st.kkt (Sum.inl c) (Sum.inl c) = (boxBelow p c).headD (old.st.kkt (Sum.inl c) (Sum.inl c)) + cfg.sigma + o.st.rhoVecBox c ∧
      (BoxAdmm.setup false cfg p.toQP xg yg old.st).kkt (Sum.inl c) (Sum.inl c) = 0 + cfg.sigma + o.st.rhoVecBox c := by
  have hB := (boxSolve_match (lin := lin) (sq := sq) (cfg := cfg0) (xg := xg0) (yg := yg0) (old := new) (p := q) (reuse := false) (both := false)
    (PH := patt q.H) (PA := patt q.A)
    ⟨⟨_, hq.1.holds⟩, ⟨_, hq.2.holds⟩, fun h => absurd h (by decide), fun _ => by rw [h0]; rfl, fun a b _ => by rw [h0]; rfl⟩).2 old h1
  obtain ⟨o, e, hk⟩ := box_missing_aux (cfg := cfg) (xg := xg) (yg := yg) hp.1 hp.2
    (hB.congr (fun i hi r => (hs.patt.1 i hi r).symm) fun i hi r => (hs.patt.2 i hi r).symm) c hc
  refine ⟨o, e, hk, ?_⟩
  have ho : o.st.rhoVecBox = (BoxAdmm.setup false cfg p.toQP xg yg old.st).rhoVecBox := by
    unfold boxSetup at e
    simp only [Option.map_eq_some_iff] at e
    obtain ⟨S, _, rfl⟩ := e
    rfl
  rw [ho]
  have hz : p.toQP.H c c = 0 := by
    show p.H.coeff c c = 0
    rw [hp.1.holds.coeff_eq c.2 c, show patt p.H c c = false from decide_eq_false hc]
    rfl
  show p.toQP.H c c + (Matrix.diagonal fun _ => cfg.sigma : Matrix (Fin N) (Fin N) K) c c + (Matrix.diagonal _ : Matrix (Fin N) (Fin N) K) c c = _
  rw [Matrix.diagonal_apply_eq, Matrix.diagonal_apply_eq, hz]
  rfl

/-! ### Decompositions that read both triangles -/

section
variable {reuse both : Bool} {lin : BoxAdmm.KktMat K N M → (BoxAdmm.KktIdx N M → K) → (BoxAdmm.KktIdx N M → K)} {sq : K → K} {cfg : Settings K}
  {p : SparseQP K N M} {P : ℕ → ℕ → Bool}

theorem boxAdaptRho_keeps (hP : ∀ c, P c c = true) {o o' : BoxObj K N M} (h : boxAdaptRho sq cfg o = some o') : Keeps (N + M) P o.mK o'.mK := by
  unfold boxAdaptRho at h
  simp only at h
  split_ifs at h
  · unfold boxUpdateKktRho at h
    rw [Option.map_map, Option.map_eq_some_iff] at h
    obtain ⟨S, hS, rfl⟩ := h
    rw [Option.bind_eq_some_iff] at hS
    obtain ⟨S1, h1, h2⟩ := hS
    refine fun V hV => ?_
    obtain ⟨V1, hV1, k1⟩ := addDiag_off hV hP h1
    obtain ⟨V2, hV2, k2⟩ := setDiag_off hV1 hP h2
    exact ⟨V2, hV2, fun r c hrc => (k2 r c hrc).trans (k1 r c hrc)⟩
  · injection h with h; rw [← h]; exact Keeps.refl _ _ _

theorem boxBody_keeps (hP : ∀ c, P c c = true) {iter : ℤ} {o o' : BoxObj K N M}
    (h : boxBody lin sq cfg p iter o = .brk o' ∨ boxBody lin sq cfg p iter o = .cont o') : Keeps (N + M) P o.mK o'.mK := by
  unfold boxBody at h
  simp only at h
  generalize (if BoxAdmm.checkNow cfg iter = true then BoxAdmm.residualsUpdate p.toQP (BoxAdmm.admmUpdate lin cfg p.toQP o.st)
    else BoxAdmm.admmUpdate lin cfg p.toQP o.st) = st2 at h
  split at h
  · rcases h with h | h
    · injection h with h; rw [← h]; exact Keeps.refl _ _ _
    · cases h
  · split at h
    · split at h
      · rcases h with h | h <;> cases h
      · split at h
        · split at h
          · rcases h with h | h <;> cases h
          · rename_i o1 ho1
            rcases h with h | h
            · cases h
            · injection h with h
              rw [← h]
              have := boxAdaptRho_keeps (P := P) hP ho1
              exact this
        · rcases h with h | h
          · cases h
          · injection h with h; rw [← h]; exact Keeps.refl _ _ _
    · rcases h with h | h
      · cases h
      · injection h with h; rw [← h]; exact Keeps.refl _ _ _

theorem boxLoop_keeps (hP : ∀ c, P c c = true) (n : ℕ) : ∀ (iter : ℤ) {o : BoxObj K N M} {r : ℤ × BoxObj K N M},
    boxLoop lin sq cfg p n iter o = some r → Keeps (N + M) P o.mK r.2.mK := by
  induction n with
  | zero => intro iter o r h; injection h with h; rw [← h]; exact Keeps.refl _ _ _
  | succ n ih =>
    intro iter o r h
    unfold boxLoop at h
    rcases hb : boxBody lin sq cfg p iter o with _ | o1 | o1 <;> rw [hb] at h
    · cases h
    · injection h with h; rw [← h]; exact boxBody_keeps hP (Or.inl hb)
    · exact (boxBody_keeps hP (Or.inr hb)).trans (ih _ h)

theorem boxSolve_keeps (hP : ∀ c, P c c = true) {xg : Fin N → K} {yg : Fin M ⊕ Fin N → K} {old o : BoxObj K N M}
    (h : boxSolve reuse both lin sq cfg p xg yg old = some o) : ∃ o0, boxSetup reuse both cfg p xg yg old = some o0 ∧ Keeps (N + M) P o0.mK o.mK := by
  unfold boxSolve at h
  rcases hs : boxSetup reuse both cfg p xg yg old with _ | o0
  · rw [hs] at h; cases h
  · rw [hs, Option.bind_some] at h
    rcases hl : boxLoop lin sq cfg p cfg.maxIter.toNat 1 o0 with _ | ⟨it, o1⟩
    · rw [hl] at h; cases h
    · rw [hl] at h
      have := boxLoop_keeps hP _ _ hl
      injection h with h
      rw [← h]
      exact ⟨o0, rfl, this⟩

end

/-- C112. With a decomposition that reads both triangles a call with `reuse_pattern` after a call with the same pattern, if it does not fail
an assertion, leaves the upper right block of the KKT matrix as it was in the call before, with the constraint matrix of that call. -/
theorem box_reuse_both_stale {lin : BoxAdmm.KktMat K N M → (BoxAdmm.KktIdx N M → K) → (BoxAdmm.KktIdx N M → K)} {sq : K → K}
    {cfg0 cfg : Settings K} {q p : SparseQP K N M} {xg0 xg : Fin N → K} {yg0 yg : Fin M ⊕ Fin N → K} {new old o : BoxObj K N M}
    (hq : WF q.H N N ∧ WF q.A N M) (hp : WF p.H N N ∧ WF p.A N M) (hs : SamePattern q p)
    (h1 : boxSolve false true lin sq cfg0 q xg0 yg0 new = some old) (h2 : boxSetup true true cfg p xg yg old = some o) (i : Fin N) (b : Fin M) :
    o.st.kkt (Sum.inl i) (Sum.inr b) = q.A.coeff b i := by
  have hqH := hq.1.holds
  have hqA := hq.2.holds
  have hpH := hp.1.holds
  have hpA := hp.2.holds
  have hcP : ∀ c < N + M, ∀ r, kktPat true N (patt q.H) (patt q.A) c r = kktPat true N (patt p.H) (patt p.A) c r :=
    fun c _ r => kktPat_congr (fun i hi r => (hs.patt.1 i hi r).symm) (fun i hi r => (hs.patt.2 i hi r).symm) c r
  -- the first call
  obtain ⟨o0, e0, l⟩ := boxSolve_keeps (P := kktPat true N (patt q.H) (patt q.A)) (fun c => kktPat_diag ..) h1
  unfold boxSetup boxKkt at e0
  simp only [Bool.false_eq_true, if_false] at e0
  rw [Option.map_eq_some_iff] at e0
  obtain ⟨S, eS, rfl⟩ := e0
  obtain ⟨S', eS', _, hS'⟩ := kktFresh_holds hqH hqA true new.mK (fun i => cfg0.sigma +
    arr (BoxAdmm.rhoVecUpdate cfg0.rho { new.st with
      x := xg0, y := yg0, z := q.toQP.A *ᵥ xg0, q := xg0, constrType := parseConstr q.Alb q.Aub, boxType := parseBox q.xlb q.xub }).rhoVecBox i)
    (arr (BoxAdmm.rhoVecUpdate cfg0.rho { new.st with
      x := xg0, y := yg0, z := q.toQP.A *ᵥ xg0, q := xg0, constrType := parseConstr q.Alb q.Aub, boxType := parseBox q.xlb q.xub }).rhoInvVec)
  rw [eS'] at eS
  injection eS with eS
  subst eS
  obtain ⟨V, hV, eV⟩ := l _ hS'
  -- the second call
  unfold boxSetup boxKkt at h2
  simp only [if_true] at h2
  rw [Option.map_eq_some_iff] at h2
  obtain ⟨S4, e4, rfl⟩ := h2
  rw [Option.bind_eq_some_iff] at e4
  obtain ⟨S3, e3, e4⟩ := e4
  rw [Option.bind_eq_some_iff] at e3
  obtain ⟨S2, e2, e3⟩ := e3
  rw [Option.bind_eq_some_iff] at e2
  obtain ⟨S1, e1, e2⟩ := e2
  obtain ⟨P', V1, hV1, hd, hk⟩ := kktSame_stale hpH hpA (hV.congrP hcP) e1
  obtain ⟨V2, hV2, k2⟩ := addDiag_off hV1 hd e2
  obtain ⟨V3, hV3, k3⟩ := addDiag_off hV2 hd e3
  obtain ⟨V4, hV4, k4⟩ := setDiag_off hV3 hd e4
  show S4.coeff i (N + b) = _
  have hlt : N + (b : ℕ) < N + M := by omega
  have hne : (i : ℕ) ≠ N + b := by omega
  obtain ⟨k5, k6⟩ := hk i i.2 (N + b) (by omega)
  rw [hV4.coeff_eq hlt i, k5, k4 _ _ hne, k3 _ _ hne, k2 _ _ hne, k6, eV _ _ hne, ← hcP _ hlt, hqA.coeff_eq i.2 b]
  have h1 : ¬ N + (b : ℕ) < N := by omega
  simp only [kktPat, kktVal, h1, if_false, Nat.add_sub_cancel_left, i.2, decide_true, Bool.and_true, hne]
  rw [show ((i : ℕ) == N + b) = false by simpa using hne, Bool.false_or, Bool.true_and]

/-- C112. Such a call fails an assertion if the constraint matrix stores an entry and the one in the transposed place, for instance an entry
of its diagonal, or an entry in a column that is not smaller than the number of its rows. -/
theorem box_reuse_both_asserts {lin : BoxAdmm.KktMat K N M → (BoxAdmm.KktIdx N M → K) → (BoxAdmm.KktIdx N M → K)} {sq : K → K}
    {cfg0 cfg : Settings K} {q p : SparseQP K N M} {xg0 xg : Fin N → K} {yg0 yg : Fin M ⊕ Fin N → K} {new old : BoxObj K N M}
    (hq : WF q.H N N ∧ WF q.A N M) (hp : WF p.H N N ∧ WF p.A N M) (hs : SamePattern q p) (h0 : new.st.kkt = 0)
    (h1 : boxSolve false true lin sq cfg0 q xg0 yg0 new = some old) {j k : ℕ} (hj : j < N) (hs1 : Stored p.A j k)
    (hs2 : M ≤ j ∨ k < N ∧ Stored p.A k j) : boxSolve true true lin sq cfg p xg yg old = none := by
  have hqH := hq.1.holds
  have hqA := hq.2.holds
  have hpH := hp.1.holds
  have hpA := hp.2.holds
  have hB := ((boxSolve_match (lin := lin) (sq := sq) (cfg := cfg0) (xg := xg0) (yg := yg0) (old := new) (p := q) (reuse := false) (both := true)
    (PH := patt q.H) (PA := patt q.A)
    ⟨⟨_, hqH⟩, ⟨_, hqA⟩, fun h => absurd h (by decide), fun _ => by rw [h0]; rfl, fun a b _ => by rw [h0]; rfl⟩).2 old h1).congr
    (fun i hi r => (hs.patt.1 i hi r).symm) fun i hi r => (hs.patt.2 i hi r).symm
  obtain ⟨V, hV⟩ := hB.k
  obtain ⟨S1, e1, s1, c1, hS1⟩ := sameLoop_holds (H := p.H) (A := p.A) hV fun c hc => sameLoop_room hpH hpA true hc
  have hT := transposeCols_isCols hpA
  have hk1 : k < M := hpA.rows j hj k (decide_eq_true hs1)
  have hmem : (j, k, p.A.coeff k j) ∈ entries M (transposeCols p.A N) := by
    rw [mem_entries hT]
    exact ⟨hk1, hj, decide_eq_true hs1, rfl⟩
  have hins : blockInsert (N + M) (N + M) S1 N 0 M (transposeCols p.A N) = none := by
    rcases hs2 with hs2 | ⟨hk, hs2⟩
    · exact blockInsert_range hmem (by show N + M ≤ N + j; omega)
    · refine blockInsert_exists hS1 hmem ?_
      intro _
      simp only [Nat.zero_add]
      unfold kktPat
      rw [if_pos hk, if_neg (by omega), Nat.add_sub_cancel_left]
      exact decide_eq_true hs2
  unfold boxSolve boxSetup boxKkt
  simp only [if_true]
  rw [kktSame_eq, e1, Option.bind_some]
  simp only [if_true]
  rw [hins]
  rfl

/-! ### Examples -/

/-- An object that has not been used. -/
def exBoxNew : BoxObj ℚ 1 1 := ⟨BoxAdmm.fresh Admm.exampleCfg (fun _ => 0) (fun _ => 0) 0, one 0 0⟩

/-- A regular sequence of calls (see the example of C107) is defined and ends with SOLVED. -/
example : (boxSparseRun false BoxAdmm.exampleLin id [exCall false (exQP 1 1 1 1), exCall true (exQP 1 2 1 3), exCall true (exQP 1 2 3 1)] exBoxNew).map
    (fun o => o.st.info.status) = some .SOLVED := by decide +kernel

/-- C111 at work: with the Hessian stored as an empty column the second call returns another point than the dense solver. -/
example : (boxSparseRun false BoxAdmm.exampleLin id [exCall false (exQP 0 0 1 1), exCall true (exQP 0 0 1 1)] exBoxNew).map (fun o => o.st.x 0) ≠
    (boxDenseRun false BoxAdmm.exampleLin id [exCall false (exQP 0 0 1 1), exCall true (exQP 0 0 1 1)] exBoxNew.st).map (fun s => s.x 0) := by
  decide +kernel

/-- The entry in question: the coefficient 3 of the constraint. -/
example : (boxBelow (exQP 0 0 1 3) 0).headD 7 = 3 := by decide +kernel

/-- C112 at work: the second call is defined and works with the coefficient 1 of the first call in the upper right block, and with its own
coefficient 5 in the lower left block. -/
example : ((boxSolve false true (fun _ b => b) id { Admm.exampleCfg with maxIter := 1 } (exStale 1) 0 0
      ⟨BoxAdmm.fresh Admm.exampleCfg (fun _ => 0) (fun _ => 0) 0, one 0 0⟩).bind fun o =>
    (boxSetup true true Admm.exampleCfg (exStale 5) 0 0 o).map fun o =>
      (o.st.kkt (Sum.inl 1) (Sum.inr 0), o.st.kkt (Sum.inr 0) (Sum.inl 1))) = some (1, 5) := by decide +kernel

end PolyMPC.AdmmSparse
