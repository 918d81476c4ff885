import Verif.Lemmas.AdmmSparse
import Verif.Props.AdmmHistory
import Verif.Props.AdmmConvergence

/-!
# ADMM on sparse data (C107, C108)

The sparse solver computes what the dense solver computes, for every sequence of calls, if the patterns of the matrices do not change
between the assembly and the calls with `reuse_pattern`, the Hessian stores all its diagonal entries and the decomposition reads the
lower triangle. Otherwise the update in place does not produce the KKT matrix.
-/

namespace PolyMPC.AdmmSparse
open Matrix PolyMPC.Spec PolyMPC.QPBase PolyMPC.Sparse PolyMPC.Sparse.Csc

set_option linter.unusedSectionVars false
set_option linter.unusedVariables false

variable {K : Type} [Field K] [LinearOrder K] [IsStrictOrderedRing K] {N M : ℕ}

/-- Row of the stacked matrix as a number. -/
def rowPos : Fin M ⊕ Fin N → ℕ
  | Sum.inl i => i
  | Sum.inr i => M + i

theorem rowPos_lt (b : Fin M ⊕ Fin N) : rowPos b < M + N := by
  rcases b with i | i <;> simp only [rowPos] <;> omega

theorem rowPos_inj {a b : Fin M ⊕ Fin N} (h : rowPos a = rowPos b) : a = b := by
  rcases a with i | i <;> rcases b with j | j <;> simp only [rowPos] at h
  · rw [Fin.ext h]
  · omega
  · omega
  · rw [Fin.ext (show (i : ℕ) = j by omega)]

theorem kktPos_inr (b : Fin M ⊕ Fin N) : Admm.kktPos (Sum.inr b : Admm.KktIdx N M) = N + rowPos b := by
  rcases b with i | i <;> simp only [Admm.kktPos, rowPos] <;> omega

theorem stackVec_rowPos (v : Fin M ⊕ Fin N → K) (b : Fin M ⊕ Fin N) : stackVec v (rowPos b) = v b := by
  rcases b with i | i
  · simp [stackVec, rowPos]
  · simp [stackVec, rowPos]

/-- The stacked matrix. -/
theorem stack_eq {A : Csc K} {PA : ℕ → ℕ → Bool} {MA : ℕ → ℕ → K} (hA : Holds A N M PA MA) (b : Fin M ⊕ Fin N) (j : Fin N) :
    (if stackPat M PA j (rowPos b) then stackVal M MA (rowPos b) j else 0) = Admm.constructA (fun i j => A.coeff i j : Matrix (Fin M) (Fin N) K) b j := by
  rcases b with i | i
  · simp only [stackPat, stackVal, rowPos, i.2, if_true]
    exact (hA.coeff_eq j.2 i).symm
  · have h : ¬ M + (i : ℕ) < M := by omega
    simp only [stackPat, stackVal, rowPos, h, if_false]
    show _ = (1 : Matrix (Fin N) (Fin N) K) i j
    rw [Matrix.one_apply]
    by_cases hij : i = j
    · subst hij
      simp [Nat.add_comm]
    · rw [if_neg hij, if_neg]
      simp only [beq_iff_eq]
      intro h2
      exact hij (Fin.ext (by omega))

theorem matA_eq {A S : Csc K} {PA : ℕ → ℕ → Bool} {MA : ℕ → ℕ → K} (hA : Holds A N M PA MA)
    (hS : Holds S N (M + N) (stackPat M PA) (stackVal M MA)) : matA N M S = Admm.constructA (fun i j => A.coeff i j) := by
  funext b j
  rw [← stack_eq hA b j]
  rcases b with i | i
  · exact hS.coeff_eq j.2 _
  · exact hS.coeff_eq j.2 _

theorem matK_apply {S : Csc K} {P : ℕ → ℕ → Bool} {V : ℕ → ℕ → K} (h : Holds S (N + (M + N)) (N + (M + N)) P V) (i j : Admm.KktIdx N M) :
    matK N M S i j = if P (Admm.kktPos j) (Admm.kktPos i) then V (Admm.kktPos i) (Admm.kktPos j) else 0 := by
  refine h.coeff_eq ?_ _
  rcases j with j | b
  · show (j : ℕ) < _; omega
  · rw [kktPos_inr]; have := rowPos_lt b; omega

/-- The assembled matrix. -/
theorem matK_eq {H A S : Csc K} {PH PA : ℕ → ℕ → Bool} {MH MA : ℕ → ℕ → K} {both : Bool} (hH : Holds H N N PH MH) (hA : Holds A N M PA MA)
    (sigma : K) (d : Fin M ⊕ Fin N → K)
    (hS : Holds S (N + (M + N)) (N + (M + N)) (kktPat both N PH (stackPat M PA)) (kktVal N PH MH (stackVal M MA) (fun _ => sigma) (stackVec d)))
    (old : Admm.KktMat K N M) (hold : both = false → old.toBlocks₁₂ = 0) :
    matK N M S = Admm.constructKkt both sigma (fun i j => H.coeff i j) (Admm.constructA fun i j => A.coeff i j) d old := by
  funext i j
  rw [matK_apply hS]
  unfold Admm.constructKkt
  rcases i with i | a <;> rcases j with j | b
  · have hi : Admm.kktPos (Sum.inl i : Admm.KktIdx N M) = i := rfl
    have hj : Admm.kktPos (Sum.inl j : Admm.KktIdx N M) = j := rfl
    rw [hi, hj, Matrix.fromBlocks_apply₁₁]
    show _ = H.coeff i j + Matrix.diagonal (fun _ => sigma) i j
    rw [Matrix.diagonal_apply]
    simp only [kktPat, kktVal, i.2, j.2, if_true]
    rw [hH.coeff_eq j.2 i]
    by_cases hij : i = j
    · subst hij; simp
    · have : ¬ (i : ℕ) = j := fun h => hij (Fin.ext h)
      by_cases hp : PH j i = true
      · simp [hp, hij, this]
      · simp [hp, hij, this]
  · have hi : Admm.kktPos (Sum.inl i : Admm.KktIdx N M) = i := rfl
    rw [hi, kktPos_inr, Matrix.fromBlocks_apply₁₂]
    have h1 : ¬ N + rowPos b < N := by omega
    have h2 : ¬ (i : ℕ) = N + rowPos b := by omega
    simp only [kktPat, kktVal, h1, if_false, Nat.add_sub_cancel_left, i.2, decide_true, Bool.and_true, h2]
    rw [show ((i : ℕ) == N + rowPos b) = false by simpa using h2, Bool.false_or]
    cases both
    · rw [hold rfl]; simp
    · simp only [Bool.true_and, if_true]
      exact stack_eq hA b i
  · have hj : Admm.kktPos (Sum.inl j : Admm.KktIdx N M) = j := rfl
    rw [hj, kktPos_inr, Matrix.fromBlocks_apply₂₁]
    have h1 : ¬ N + rowPos a < N := by omega
    simp only [kktPat, kktVal, h1, if_false, Nat.add_sub_cancel_left, j.2, if_true]
    exact stack_eq hA a j
  · rw [kktPos_inr, kktPos_inr, Matrix.fromBlocks_apply₂₂, Matrix.smul_apply, Matrix.diagonal_apply]
    have h1 : ¬ N + rowPos a < N := by omega
    have h2 : ¬ N + rowPos b < N := by omega
    simp only [kktPat, kktVal, h1, h2, if_false, Nat.add_sub_cancel_left, decide_false, Bool.and_false, Bool.false_and, Bool.or_false, smul_eq_mul]
    by_cases hab : a = b
    · subst hab
      simp [stackVec_rowPos]
    · have : ¬ rowPos a = rowPos b := fun h => hab (rowPos_inj h)
      simp [this, hab]

/-- What the matrices of an object look like after a call with matrices of the patterns `PH`, `PA`. -/
structure Built (both : Bool) (PH PA : ℕ → ℕ → Bool) (o : Obj K N M) : Prop where
  a : ∃ MO, Holds o.mA N (M + N) (stackPat M PA) (stackVal M MO)
  k : ∃ V, Holds o.mK (N + (M + N)) (N + (M + N)) (kktPat both N PH (stackPat M PA)) V
  eq : o.st.kkt = matK N M o.mK

theorem Built.topRight {PH PA : ℕ → ℕ → Bool} {o : Obj K N M} (h : Built false PH PA o) : o.st.kkt.toBlocks₁₂ = 0 := by
  obtain ⟨V, hV⟩ := h.k
  funext i b
  show o.st.kkt (Sum.inl i) (Sum.inr b) = 0
  rw [h.eq, matK_apply hV, kktPos_inr]
  have hi : Admm.kktPos (Sum.inl i : Admm.KktIdx N M) = i := rfl
  have h1 : ¬ N + rowPos b < N := by omega
  have h2 : ¬ (i : ℕ) = N + rowPos b := by omega
  rw [hi]
  simp [kktPat, h1, h2]

/-- The hypotheses of one call. -/
structure Fits (reuse both : Bool) (PH PA : ℕ → ℕ → Bool) (p : SparseQP K N M) (old : Obj K N M) : Prop where
  H : ∃ MH, Holds p.H N N PH MH
  A : ∃ MA, Holds p.A N M PA MA
  reuse : reuse = true → both = false ∧ Built both PH PA old ∧ ∀ c < N, PH c c = true
  top : both = false → old.st.kkt.toBlocks₁₂ = 0

/-- Assembly. -/
theorem setup_eq {reuse both : Bool} {cfg : Settings K} {p : SparseQP K N M} {xg : Fin N → K} {yg : Fin M ⊕ Fin N → K} {old : Obj K N M}
    {PH PA : ℕ → ℕ → Bool} (h : Fits reuse both PH PA p old) :
    ∃ o, setup reuse both cfg p xg yg old = some o ∧ o.st = Admm.setup both cfg p.toQP xg yg old.st ∧ Built both PH PA o := by
  obtain ⟨MH, hH⟩ := h.H
  obtain ⟨MA, hA⟩ := h.A
  have h1 : ∃ mA, constructA reuse N M p.A old.mA = some mA ∧ Holds mA N (M + N) (stackPat M PA) (stackVal M MA) := by
    unfold constructA
    cases hr : reuse
    · simpa using constructAFresh_holds hA old.mA
    · obtain ⟨_, hb, _⟩ := h.reuse hr
      obtain ⟨MO, ho⟩ := hb.a
      simpa using constructAReuse_holds hA ho
  obtain ⟨mA, eA, hmA⟩ := h1
  set s2 := Admm.rhoVecUpdate cfg.rho { old.st with
    x := xg, y := yg, A := matA N M mA, z := matA N M mA *ᵥ xg
    constrType := parseConstr p.Alb p.Aub
    boxType := parseBox p.xlb p.xub } with hs2
  have h2 : ∃ mK, admmKkt reuse both N (M + N) cfg.sigma (stackVec s2.rhoInvVec) p.H mA old.mK = some mK ∧
      Holds mK (N + (M + N)) (N + (M + N)) (kktPat both N PH (stackPat M PA))
        (kktVal N PH MH (stackVal M MA) (fun _ => cfg.sigma) (stackVec s2.rhoInvVec)) := by
    unfold admmKkt
    cases hr : reuse
    · obtain ⟨S, e, _, hS⟩ := kktFresh_holds hH hmA both old.mK (fun _ => cfg.sigma) (stackVec s2.rhoInvVec)
      exact ⟨S, by simpa using e, hS⟩
    · obtain ⟨hb, hB, hd⟩ := h.reuse hr
      subst hb
      obtain ⟨V, hV⟩ := hB.k
      obtain ⟨S1, e1, _, _, h1⟩ := sameLoop_diag hH hmA hV hd
      obtain ⟨S2, e2, _, h2⟩ := addDiag_holds h1 fun _ => cfg.sigma
      obtain ⟨S3, e3, _, h3⟩ := setDiag_holds h2 (stackVec s2.rhoInvVec)
      refine ⟨S3, ?_, h3.congr fun c hc r hr' hp => ?_⟩
      · simp [kktSame_eq, e1, e2, e3]
      · unfold kktVal
        by_cases hcN : c < N
        · rw [if_neg (by omega), if_pos hcN, if_pos hcN]
          by_cases hrN : r < N
          · have hPH : PH c r = true := by
              unfold kktPat at hp
              rw [if_pos hcN, if_pos hrN, Bool.or_eq_true, beq_iff_eq] at hp
              rcases hp with hp | rfl
              · exact hp
              · exact hd r hcN
            rw [if_pos hrN, if_pos hrN, if_pos hPH]
            by_cases hrc : r = c
            · rw [if_pos ⟨hcN, hrc⟩, if_pos hrc]
            · rw [if_neg (fun hh => hrc hh.2), if_neg hrc, add_zero]
          · rw [if_neg (by omega), if_neg hrN, if_neg hrN]
        · unfold kktPat at hp
          rw [if_neg hcN] at hp
          have hrc : r = c := by simpa using hp
          rw [if_pos (show N ≤ c ∧ r = c from ⟨by omega, hrc⟩), if_neg hcN, if_pos hrc]
  obtain ⟨mK, eK, hmK⟩ := h2
  have hmat := matK_eq hH hA cfg.sigma s2.rhoInvVec hmK old.st.kkt h.top
  have hAeq := matA_eq hA hmA
  refine ⟨⟨{ Admm.factorise { s2 with kkt := matK N M mK } with
    info := { (Admm.factorise { s2 with kkt := matK N M mK }).info with status := .UNSOLVED } }, mA, mK⟩, ?_, ?_, ⟨⟨MA, hmA⟩, ⟨_, hmK⟩, rfl⟩⟩
  · unfold setup
    rw [eA, Option.bind_some]
    simp only [← hs2]
    rw [eK, Option.map_some]
  · simp only [hmat]
    rw [hs2, hAeq]
    rfl

/-- Change of the step size in the KKT matrix. -/
theorem updateKktRho_eq {both : Bool} {PH PA : ℕ → ℕ → Bool} {o : Obj K N M} (h : Built both PH PA o) :
    ∃ o', updateKktRho o = some o' ∧ o'.st = Admm.updateKktRho o.st ∧ Built both PH PA o' := by
  obtain ⟨V, hV⟩ := h.k
  obtain ⟨S, e, _, hS⟩ := setDiag_holds hV (stackVec o.st.rhoInvVec)
  refine ⟨{ o with st := { o.st with kkt := matK N M S }, mK := S }, ?_, ?_, ⟨h.a, ⟨_, hS⟩, rfl⟩⟩
  · unfold updateKktRho; rw [e]; rfl
  · unfold Admm.updateKktRho
    simp only
    congr 1
    have hk : o.st.kkt = matK N M o.mK := h.eq
    rw [hk]
    funext i j
    rw [matK_apply hS, matK_apply hV]
    have hp : ∀ j : Fin N, ¬ N ≤ Admm.kktPos (Sum.inl j : Admm.KktIdx N M) := fun j => by show ¬ N ≤ (j : ℕ); omega
    rcases i with i | a <;> rcases j with j | b
    · rw [if_neg (fun hh : N ≤ _ ∧ _ => hp j hh.1)]
    · have : ¬ Admm.kktPos (Sum.inl i : Admm.KktIdx N M) = Admm.kktPos (Sum.inr b : Admm.KktIdx N M) := by
        rw [kktPos_inr]; show ¬ (i : ℕ) = _; omega
      rw [if_neg (fun hh : N ≤ _ ∧ _ => this hh.2)]
    · rw [if_neg (fun hh : N ≤ _ ∧ _ => hp j hh.1)]
    · rw [kktPos_inr, kktPos_inr]
      show _ = if a = b then _ else _
      by_cases hab : a = b
      · subst hab
        rw [if_pos (rfl : a = a), kktPat_diag, if_pos rfl, if_pos ⟨by omega, rfl⟩, Nat.add_sub_cancel_left, stackVec_rowPos]
      · have : ¬ N + rowPos a = N + rowPos b := fun hh => hab (rowPos_inj (by omega))
        rw [if_neg hab, if_neg (fun hh : N ≤ _ ∧ _ => this hh.2)]

theorem Built.of {both : Bool} {PH PA : ℕ → ℕ → Bool} {o : Obj K N M} (h : Built both PH PA o) {s : Admm.State K N M} (hs : s.kkt = o.st.kkt) :
    Built both PH PA { o with st := s } := ⟨h.a, h.k, hs.trans h.eq⟩

theorem adaptRho_eq {both : Bool} {PH PA : ℕ → ℕ → Bool} {sq : K → K} {cfg : Settings K} {o : Obj K N M} (h : Built both PH PA o) :
    ∃ o', adaptRho sq cfg o = some o' ∧ o'.st = Admm.adaptRho sq cfg o.st ∧ Built both PH PA o' := by
  unfold adaptRho Admm.adaptRho
  simp only
  split_ifs with hc
  · obtain ⟨o', e, hs, hB⟩ := updateKktRho_eq (o := { o with st := (Admm.rhoVecUpdate (Admm.clampRho (Admm.estimateRho sq o.st o.st.rho))
      { o.st with info := { o.st.info with rhoEstimate := Admm.clampRho (Admm.estimateRho sq o.st o.st.rho) } }) }) (h.of rfl)
    refine ⟨{ o' with st := Admm.factorise o'.st }, by rw [e]; rfl, ?_, hB.of rfl⟩
    simp only [hs]
  · exact ⟨_, rfl, rfl, h.of rfl⟩

/-- One result of a pass matches another. -/
def Match (both : Bool) (PH PA : ℕ → ℕ → Bool) : Admm.StepResult (Obj K N M) → Admm.StepResult (Admm.State K N M) → Prop
  | .ub, .ub => True
  | .brk o, .brk s => o.st = s ∧ Built both PH PA o
  | .cont o, .cont s => o.st = s ∧ Built both PH PA o
  | _, _ => False

section
variable {reuse both : Bool} {lin : Admm.KktMat K N M → (Admm.KktIdx N M → K) → (Admm.KktIdx N M → K)} {sq : K → K} {cfg : Settings K}
  {p : SparseQP K N M} {PH PA : ℕ → ℕ → Bool}

theorem body_match {iter : ℤ} {o : Obj K N M} (h : Built both PH PA o) :
    Match both PH PA (body lin sq cfg p iter o) (Admm.body lin sq cfg p.toQP iter o.st) := by
  unfold body Admm.body
  simp only
  have hk : ∀ b : Bool, (if b then Admm.residualsUpdate p.toQP (Admm.admmUpdate lin cfg p.toQP o.st) else Admm.admmUpdate lin cfg p.toQP o.st).kkt =
      o.st.kkt := fun b => by cases b <;> rfl
  set st2 := (if Admm.checkNow cfg iter then Admm.residualsUpdate p.toQP (Admm.admmUpdate lin cfg p.toQP o.st)
    else Admm.admmUpdate lin cfg p.toQP o.st) with hst2
  have h2 : st2.kkt = o.st.kkt := hk _
  by_cases c1 : (Admm.checkNow cfg iter && Admm.terminationCriteria cfg st2) = true
  · rw [if_pos c1, if_pos c1]
    exact ⟨rfl, h.of h2⟩
  · rw [if_neg c1, if_neg c1]
    by_cases c2 : cfg.adaptiveRho = true
    · rw [if_pos c2, if_pos c2]
      by_cases c3 : cfg.adaptiveRhoInterval = 0
      · rw [if_pos c3, if_pos c3]; trivial
      · rw [if_neg c3, if_neg c3]
        by_cases c4 : iter.tmod cfg.adaptiveRhoInterval = 0
        · rw [if_pos c4, if_pos c4]
          have h3 : (if Admm.checkNow cfg iter then st2 else Admm.residualsUpdate p.toQP st2).kkt = o.st.kkt := by
            split_ifs
            · exact h2
            · exact h2
          obtain ⟨o', e, hs, hB⟩ := adaptRho_eq (sq := sq) (cfg := cfg) (h.of h3)
          rw [e]
          exact ⟨hs, hB⟩
        · rw [if_neg c4, if_neg c4]
          exact ⟨rfl, h.of h2⟩
    · rw [if_neg c2, if_neg c2]
      exact ⟨rfl, h.of h2⟩

theorem loop_match (n : ℕ) (iter : ℤ) {o : Obj K N M} (h : Built both PH PA o) :
    (loop lin sq cfg p n iter o).map (fun r => (r.1, r.2.st)) = Admm.loop lin sq cfg p.toQP n iter o.st ∧
    ∀ r, loop lin sq cfg p n iter o = some r → Built both PH PA r.2 := by
  induction n generalizing iter o with
  | zero => exact ⟨rfl, fun r hr => by injection hr with hr; rw [← hr]; exact h⟩
  | succ n ih =>
    unfold loop Admm.loop
    have hm := body_match (lin := lin) (sq := sq) (cfg := cfg) (p := p) (iter := iter) h
    rcases h1 : body lin sq cfg p iter o with _ | o1 | o1 <;> rcases h2 : Admm.body lin sq cfg p.toQP iter o.st with _ | s1 | s1 <;>
      rw [h1, h2] at hm
    · exact ⟨rfl, fun r hr => by simp at hr⟩
    · exact hm.elim
    · exact hm.elim
    · exact hm.elim
    · obtain ⟨rfl, hB⟩ := hm
      exact ⟨rfl, fun r hr => by injection hr with hr; rw [← hr]; exact hB⟩
    · exact hm.elim
    · exact hm.elim
    · exact hm.elim
    · obtain ⟨rfl, hB⟩ := hm
      exact ih (iter + 1) hB

/-- One call. -/
theorem solve_match {xg : Fin N → K} {yg : Fin M ⊕ Fin N → K} {old : Obj K N M} (h : Fits reuse both PH PA p old) :
    (solve reuse both lin sq cfg p xg yg old).map Obj.st = Admm.solve both lin sq cfg p.toQP xg yg old.st ∧
    ∀ o, solve reuse both lin sq cfg p xg yg old = some o → Built both PH PA o := by
  obtain ⟨o, e, hs, hB⟩ := setup_eq (cfg := cfg) (xg := xg) (yg := yg) h
  obtain ⟨h1, h2⟩ := loop_match (lin := lin) (sq := sq) (cfg := cfg) (p := p) cfg.maxIter.toNat 1 hB
  unfold solve Admm.solve
  rw [e, Option.bind_some, ← hs, ← h1]
  rcases hl : loop lin sq cfg p cfg.maxIter.toNat 1 o with _ | ⟨it, o1⟩
  · exact ⟨rfl, fun o ho => by simp at ho⟩
  · refine ⟨rfl, fun o' ho => ?_⟩
    simp only [Option.some.injEq] at ho
    rw [← ho]
    refine (h2 _ hl).of ?_
    simp only
    split_ifs <;> rfl

end

/-! ### Sequences of calls -/

/-- What the caller passes to one call of `solve` on an object; `reuse` is the setting `reuse_pattern`. -/
structure Call (K : Type) (N M : ℕ) where
  reuse : Bool
  cfg : Settings K
  p : SparseQP K N M
  xg : Fin N → K
  yg : Fin M ⊕ Fin N → K

/-- The calls on one sparse object. -/
def sparseRun (both : Bool) (lin : Admm.KktMat K N M → (Admm.KktIdx N M → K) → (Admm.KktIdx N M → K)) (sq : K → K) (l : List (Call K N M))
    (o : Obj K N M) : Option (Obj K N M) := l.foldlM (fun o c => solve c.reuse both lin sq c.cfg c.p c.xg c.yg o) o

/-- The calls with the matrices written out, on one dense object. -/
def denseRun (both : Bool) (lin : Admm.KktMat K N M → (Admm.KktIdx N M → K) → (Admm.KktIdx N M → K)) (sq : K → K) (l : List (Call K N M))
    (s : Admm.State K N M) : Option (Admm.State K N M) := l.foldlM (fun s c => Admm.solve both lin sq c.cfg c.p.toQP c.xg c.yg s) s

/-- Two QPs store entries at the same places. -/
def SamePattern (p q : SparseQP K N M) : Prop :=
  ∀ c < N, (p.H.col c).map Prod.fst = (q.H.col c).map Prod.fst ∧ (p.A.col c).map Prod.fst = (q.A.col c).map Prod.fst

/-- Histories in which `reuse_pattern` is set only after a call with the same pattern, with all diagonal entries of the Hessian stored, and
for a decomposition that reads the lower triangle. `prev` is the QP of the call before. -/
def Regular (both : Bool) : Option (SparseQP K N M) → List (Call K N M) → Prop
  | _, [] => True
  | prev, c :: l => (WF c.p.H N N ∧ WF c.p.A N M) ∧
      (c.reuse = true → both = false ∧ (∃ q, prev = some q ∧ SamePattern q c.p) ∧ ∀ i < N, Stored c.p.H i i) ∧ Regular both (some c.p) l

theorem SamePattern.patt {p q : SparseQP K N M} (h : SamePattern q p) :
    (∀ c < N, ∀ r, patt p.H c r = patt q.H c r) ∧ ∀ c < N, ∀ r, patt p.A c r = patt q.A c r := by
  constructor
  · intro c hc r
    exact decide_eq_decide.mpr (by unfold Stored; rw [(h c hc).1])
  · intro c hc r
    exact decide_eq_decide.mpr (by unfold Stored; rw [(h c hc).2])

section
variable {both : Bool} {lin : Admm.KktMat K N M → (Admm.KktIdx N M → K) → (Admm.KktIdx N M → K)} {sq : K → K}

theorem Built.congr {PH PA PH' PA' : ℕ → ℕ → Bool} {o : Obj K N M} (h : Built both PH PA o) (eH : ∀ c < N, ∀ r, PH c r = PH' c r)
    (eA : ∀ c < N, ∀ r, PA c r = PA' c r) : Built both PH' PA' o := by
  obtain ⟨MO, hA⟩ := h.a
  obtain ⟨V, hK⟩ := h.k
  have e2 : ∀ c < N, ∀ r, stackPat M PA c r = stackPat M PA' c r := fun c hc r => by unfold stackPat; rw [eA c hc]
  refine ⟨⟨MO, hA.congrP e2⟩, ⟨V, hK.congrP fun c _ r => ?_⟩, h.eq⟩
  unfold kktPat
  by_cases hc : c < N
  · simp only [hc, if_true]
    rw [eH c hc]
    by_cases hr : r < N
    · simp [hr]
    · simp only [hr, if_false]; rw [e2 c hc]
  · by_cases hr : r < N
    · simp only [hc, if_false, e2 r hr]
    · simp [hc, hr]

theorem run_aux (l : List (Call K N M)) : ∀ (prev : Option (SparseQP K N M)) (o : Obj K N M), Regular both prev l →
    (∀ q, prev = some q → Built both (patt q.H) (patt q.A) o) → (both = false → o.st.kkt.toBlocks₁₂ = 0) →
    (sparseRun both lin sq l o).map Obj.st = denseRun both lin sq l o.st := by
  induction l with
  | nil => intro prev o _ _ _; rfl
  | cons c l ih =>
    intro prev o ⟨⟨wH, wA⟩, hr, hl⟩ hB ht
    have hF : Fits c.reuse both (patt c.p.H) (patt c.p.A) c.p o := by
      refine ⟨⟨_, wH.holds⟩, ⟨_, wA.holds⟩, fun h => ?_, ht⟩
      obtain ⟨h1, ⟨q, rfl, hs⟩, hd⟩ := hr h
      refine ⟨h1, ?_, fun i hi => decide_eq_true (hd i hi)⟩
      exact (hB q rfl).congr (fun i hi r => (hs.patt.1 i hi r).symm) fun i hi r => (hs.patt.2 i hi r).symm
    obtain ⟨e, hb⟩ := solve_match (lin := lin) (sq := sq) (cfg := c.cfg) (xg := c.xg) (yg := c.yg) hF
    unfold sparseRun denseRun
    rw [List.foldlM_cons, List.foldlM_cons, ← e]
    rcases hs : solve c.reuse both lin sq c.cfg c.p c.xg c.yg o with _ | o1
    · rfl
    · have hb1 := hb o1 hs
      refine ih (some c.p) o1 hl (fun q hq => by injection hq with hq; rw [← hq]; exact hb1) fun h => ?_
      subst h
      exact hb1.topRight

theorem regular_append {l : List (Call K N M)} {c : Call K N M} : ∀ {prev : Option (SparseQP K N M)}, Regular both prev (l ++ [c]) → Regular both prev l := by
  induction l with
  | nil => intro _ _; trivial
  | cons a l ih => intro prev ⟨h1, h2, h3⟩; exact ⟨h1, h2, ih h3⟩

/-- C107. For every regular sequence of calls on a new object the sparse solver ends in the state of the dense solver: same solution, dual
vector, residuals, number of iterations and status, and undefined for the same calls. -/
theorem sparse_eq_dense (l : List (Call K N M)) (hl : Regular both none l) (o : Obj K N M) (ho : o.st.kkt = 0) :
    (sparseRun both lin sq l o).map Obj.st = denseRun both lin sq l o.st :=
  run_aux l none o hl (fun q hq => by cases hq) fun _ => by rw [ho]; rfl

/-- C107 with a decomposition that reads only the lower triangle: whatever was called before, the answer to the last call is the one of a
dense solver that has not been used. -/
theorem sparse_last_call (l : List (Call K N M)) (c : Call K N M) (hl : Regular both none (l ++ [c])) (o : Obj K N M) (ho : o.st.kkt = 0)
    (hlin : Admm.ReadsTriangle both lin) {o1 : Obj K N M} (h1 : sparseRun both lin sq l o = some o1) (s0 : Admm.State K N M) :
    (∃ o2 s, solve c.reuse both lin sq c.cfg c.p c.xg c.yg o1 = some o2 ∧ Admm.solve both lin sq c.cfg c.p.toQP c.xg c.yg s0 = some s ∧
      o2.st.x = s.x ∧ o2.st.y = s.y ∧ o2.st.info.status = s.info.status ∧ o2.st.info.iter = s.info.iter) ∨
    (solve c.reuse both lin sq c.cfg c.p c.xg c.yg o1 = none ∧ Admm.solve both lin sq c.cfg c.p.toQP c.xg c.yg s0 = none) := by
  have e := sparse_eq_dense (lin := lin) (sq := sq) (l ++ [c]) hl o ho
  have el := sparse_eq_dense (lin := lin) (sq := sq) l (regular_append hl) o ho
  unfold sparseRun at h1
  unfold sparseRun denseRun at e el
  rw [h1] at el
  rw [List.foldlM_append, List.foldlM_append, h1, ← el] at e
  have e' : (solve c.reuse both lin sq c.cfg c.p c.xg c.yg o1).map Obj.st = Admm.solve both lin sq c.cfg c.p.toQP c.xg c.yg o1.st := by
    simpa using e
  rcases Admm.solve_history_independent (sq := sq) (cfg := c.cfg) (qp := c.p.toQP) (xg := c.xg) (yg := c.yg) hlin o1.st s0 with
    ⟨a, b⟩ | ⟨s1, s2, a, b, hx, hy, _, _, hs, hi⟩
  · right
    rw [a] at e'
    exact ⟨by simpa using e', b⟩
  · left
    rw [a, Option.map_eq_some_iff] at e'
    obtain ⟨o2, e2, rfl⟩ := e'
    exact ⟨o2, s2, e2, b, hx, hy, hs, hi⟩

end

section
variable {both : Bool} {lin : Admm.KktMat K N M → (Admm.KktIdx N M → K) → (Admm.KktIdx N M → K)} {sq : K → K}

/-- The last of several calls is a call of the dense solver. -/
theorem sparse_last {l : List (Call K N M)} {c : Call K N M} (hl : Regular both none (l ++ [c])) {o o1 : Obj K N M} (ho : o.st.kkt = 0)
    (h1 : sparseRun both lin sq l o = some o1) :
    (solve c.reuse both lin sq c.cfg c.p c.xg c.yg o1).map Obj.st = Admm.solve both lin sq c.cfg c.p.toQP c.xg c.yg o1.st := by
  have e := sparse_eq_dense (lin := lin) (sq := sq) (l ++ [c]) hl o ho
  have el := sparse_eq_dense (lin := lin) (sq := sq) l (regular_append hl) o ho
  unfold sparseRun at h1
  unfold sparseRun denseRun at e el
  rw [h1] at el
  rw [List.foldlM_append, List.foldlM_append, h1, ← el] at e
  simpa using e

/-- C107. What a status of SOLVED means for the sparse solver, after any regular sequence of calls. -/
theorem sparse_solved_residuals {l : List (Call K N M)} {c : Call K N M} (hl : Regular both none (l ++ [c])) {o o1 o2 : Obj K N M}
    (ho : o.st.kkt = 0) (h1 : sparseRun both lin sq l o = some o1) (h2 : solve c.reuse both lin sq c.cfg c.p c.xg c.yg o1 = some o2)
    (hs : o2.st.info.status = .SOLVED) :
    infNorm (c.p.toQP.rows o2.st.x - o2.st.z) ≤ c.cfg.epsAbs + c.cfg.epsRel * Admm.primalScale c.p.toQP o2.st.x o2.st.z ∧
    infNorm (c.p.toQP.lagrangianGradient o2.st.x o2.st.y) ≤ c.cfg.epsAbs + c.cfg.epsRel * Admm.dualScale c.p.toQP o2.st.x o2.st.y := by
  have e := sparse_last (lin := lin) (sq := sq) hl ho h1
  rw [h2] at e
  have := Admm.solved_residuals e.symm hs
  exact ⟨this.1, this.2.1⟩

end

/-- C107 with C07: on a convex QP that has a KKT point, the last of any regular sequence of calls of the sparse solver ends with SOLVED if it
may take enough iterations. -/
theorem sparse_eventually_solved {both : Bool} {lin : Admm.KktMat ℝ N M → (Admm.KktIdx N M → ℝ) → (Admm.KktIdx N M → ℝ)} {sq : ℝ → ℝ}
    (hex : Admm.ExactSolver both lin) {l : List (Call ℝ N M)} {c : Call ℝ N M} (hl : Regular both none (l ++ [c])) {o o1 : Obj ℝ N M}
    (ho : o.st.kkt = 0) (h1 : sparseRun both lin sq l o = some o1) (hconv : c.p.toQP.Convex) (hkkt : ∃ x y, c.p.toQP.KKT x y)
    (hsig : 0 < c.cfg.sigma) (hrho : 0 < c.cfg.rho) (ha : 0 < c.cfg.alpha) (ha2 : c.cfg.alpha < 2) (hadapt : c.cfg.adaptiveRho = false)
    (hcheck : c.cfg.checkTermination ≠ 0) (heps : 0 < c.cfg.epsAbs) (hrel : 0 ≤ c.cfg.epsRel) :
    ∃ n : ℤ, ∀ maxIter ≥ n, ∃ o2, solve c.reuse both lin sq { c.cfg with maxIter := maxIter } c.p c.xg c.yg o1 = some o2 ∧
      o2.st.info.status = .SOLVED := by
  obtain ⟨n, hn⟩ := Admm.eventually_solved (sq := sq) (xg := c.xg) (yg := c.yg) (old := o1.st) hex hconv hkkt hsig hrho ha ha2 hadapt hcheck heps hrel
  refine ⟨n, fun m hm => ?_⟩
  obtain ⟨st, e, hs⟩ := hn m hm
  have hl' : Regular both none (l ++ [{ c with cfg := { c.cfg with maxIter := m } }]) := by
    have : ∀ (l : List (Call ℝ N M)) (prev : Option (SparseQP ℝ N M)), Regular both prev (l ++ [c]) →
        Regular both prev (l ++ [{ c with cfg := { c.cfg with maxIter := m } }]) := by
      intro l
      induction l with
      | nil => intro prev ⟨h1, h2, h3⟩; exact ⟨h1, h2, h3⟩
      | cons a l ih => intro prev ⟨h1, h2, h3⟩; exact ⟨h1, h2, ih _ h3⟩
    exact this l none hl
  have e2 := sparse_last (lin := lin) (sq := sq) hl' ho h1
  simp only at e2
  rw [e, Option.map_eq_some_iff] at e2
  obtain ⟨o2, e3, rfl⟩ := e2
  exact ⟨o2, e3, hs⟩

end PolyMPC.AdmmSparse
