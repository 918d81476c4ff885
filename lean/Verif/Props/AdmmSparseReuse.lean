import Verif.Props.AdmmSparse

/-!
# `reuse_pattern` outside its conditions (C108, C109)

If the Hessian does not store a diagonal entry, the update in place shifts the entries below it. With a decomposition that reads both
triangles the update in place leaves the upper right block as it was, or fails an assertion, because it inserts the transposed block at the
place of the lower left one.
-/

namespace PolyMPC.AdmmSparse
open Matrix PolyMPC.Spec PolyMPC.QPBase PolyMPC.Sparse PolyMPC.Sparse.Csc

set_option linter.unusedSectionVars false
set_option linter.unusedVariables false

variable {K : Type} [Field K] [LinearOrder K] [IsStrictOrderedRing K] {N M : ℕ}

/-! ### A missing diagonal entry -/

/-- The values that column `c` of the KKT matrix should hold below row `c`, if the Hessian stores nothing at `(c, c)`: the rest of the
column of the Hessian, the column of the constraint matrix, and the one of the identity. -/
def below (p : SparseQP K N M) (c : ℕ) : List K := ((p.H.col c).filter fun e => c ≤ e.1).map Prod.snd ++ (p.A.col c).map Prod.snd ++ [1]

theorem filter_eq_drop (l : List (ℕ × K)) (hs : (l.map Prod.fst).Pairwise (· < ·)) (c : ℕ) :
    l.filter (fun e => decide (c ≤ e.1)) = l.drop (l.filter fun e => decide (e.1 < c)).length := by
  induction l with
  | nil => rfl
  | cons a l ih =>
    rw [List.map_cons, List.pairwise_cons] at hs
    by_cases h : a.1 < c
    · rw [List.filter_cons_of_neg (by simpa using h), List.filter_cons_of_pos (by simpa using h), List.length_cons, List.drop_succ_cons, ih hs.2]
    · have h0 : l.filter (fun e => decide (e.1 < c)) = [] := by
        rw [List.filter_eq_nil_iff]
        intro e he
        have := hs.1 e.1 (List.mem_map_of_mem he)
        simp only [decide_eq_true_eq]; omega
      have h1 : l.filter (fun e => decide (c ≤ e.1)) = l := by
        rw [List.filter_eq_self]
        intro e he
        have := hs.1 e.1 (List.mem_map_of_mem he)
        simp only [decide_eq_true_eq]; omega
      rw [List.filter_cons_of_pos (by simpa using h), List.filter_cons_of_neg (by simpa using h), h0, h1]
      rfl

theorem holds_fst_pairwise {S : Csc K} {n m : ℕ} {P : ℕ → ℕ → Bool} {V : ℕ → ℕ → K} (h : Holds S n m P V) {c : ℕ} (hc : c < n) :
    ((S.col c).map Prod.fst).Pairwise (· < ·) := by
  rw [h.col_eq hc]
  unfold canon
  rw [List.map_map]
  have : (Prod.fst ∘ fun r => (r, V r c)) = (id : ℕ → ℕ) := rfl
  rw [this, List.map_id]
  exact List.pairwise_lt_range.filter _

theorem length_filter_lt {S : Csc K} {n m : ℕ} {P : ℕ → ℕ → Bool} {V : ℕ → ℕ → K} (h : Holds S n m P V) {c : ℕ} (hc : c < n) {r : ℕ} (hr : r ≤ m) :
    ((S.col c).filter fun e => decide (e.1 < r)).length = rank (P c) r := by
  rw [h.col_eq hc]
  unfold canon
  rw [List.filter_map, List.length_map, List.filter_filter, length_filter_range]
  obtain ⟨d, rfl⟩ := Nat.exists_eq_add_of_le hr
  rw [rank_add]
  have e1 : rank (fun a => ((fun e : ℕ × K => decide (e.1 < r)) ∘ fun r => (r, V r c)) a && P c a) r = rank (P c) r :=
    rank_congr fun i hi => by simp [hi]
  have e2 : rank (fun i => (fun a => ((fun e : ℕ × K => decide (e.1 < r)) ∘ fun r => (r, V r c)) a && P c a) (r + i)) d = 0 :=
    rank_none fun i _ => by simp
  rw [e1, e2]; rfl

theorem col_getElem? (S : Csc K) (c t : ℕ) : (S.col c)[t]? = if t < S.cnt c then some (S.idx (S.start c + t), S.val (S.start c + t)) else none := by
  unfold Csc.col
  rw [List.getElem?_map]
  by_cases h : t < S.cnt c
  · rw [List.getElem?_range h, if_pos h]; rfl
  · rw [List.getElem?_eq_none (by simpa using h), if_neg h]; rfl

/-- The first value of a column of `[A; I]`. -/
theorem stack_first {A mA : Csc K} {PA : ℕ → ℕ → Bool} {MA : ℕ → ℕ → K} (hA : Holds A N M PA MA)
    (hm : Holds mA N (M + N) (stackPat M PA) (stackVal M MA)) {c : ℕ} (hc : c < N) :
    mA.val (mA.start c) = ((A.col c).map Prod.snd ++ [1]).headD 0 := by
  have key : ∀ r, stackPat M PA c r = true → rank (stackPat M PA c) r = 0 → mA.val (mA.start c) = stackVal M MA r c := by
    intro r h1 h2
    have := hm.val c hc r h1
    unfold pos at this
    rwa [h2] at this
  have hlow : ∀ r ≤ M, rank (stackPat M PA c) r = rank (PA c) r := fun r hr => rank_congr fun i hi => by unfold stackPat; rw [if_pos (by omega)]
  by_cases h0 : 0 < A.cnt c
  · obtain ⟨r, hr, h1, h2⟩ := exists_rank (PA c) (t := 0) (r := M) (by rw [← hA.cnt c hc]; exact h0)
    have hv := hA.val c hc r h1
    unfold pos at hv
    rw [h2] at hv
    rw [key r (by unfold stackPat; rw [if_pos hr]; exact h1) (by rw [hlow r (le_of_lt hr)]; exact h2)]
    rw [List.headD_eq_head?_getD, List.head?_append, List.head?_map, List.head?_eq_getElem?, col_getElem?, if_pos h0]
    unfold stackVal
    rw [if_pos hr]
    exact hv.symm
  · have hnil : A.col c = [] := by unfold Csc.col; rw [show A.cnt c = 0 by omega]; rfl
    have hr0 : rank (PA c) M = 0 := by rw [← hA.cnt c hc]; omega
    rw [key (M + c) (by unfold stackPat; rw [if_neg (by omega), Nat.add_comm]; simp) ?_, hnil]
    · unfold stackVal; rw [if_neg (by omega)]; rfl
    · rw [rank_add, hlow M le_rfl, hr0, rank_none]
      intro i hi
      unfold stackPat
      rw [if_neg (by omega)]
      simp; omega

theorem reuse_missing_diagonal_aux {cfg : Settings K} {p : SparseQP K N M} {xg : Fin N → K} {yg : Fin M ⊕ Fin N → K} {old : Obj K N M}
    (hH : WF p.H N N) (hA : WF p.A N M) (hB : Built false (patt p.H) (patt p.A) old) (c : Fin N) (hc : ¬ Stored p.H c c) :
    ∃ o, setup true false cfg p xg yg old = some o ∧ o.st.kkt (Sum.inl c) (Sum.inl c) = (below p c).headD 0 + cfg.sigma := by
  have hH' := hH.holds
  have hA' := hA.holds
  obtain ⟨MO, ho⟩ := hB.a
  obtain ⟨V, hV⟩ := hB.k
  obtain ⟨mA, eA, hmA⟩ := constructAReuse_holds hA' ho
  obtain ⟨S1, e1, _, _, h1⟩ := sameLoop_holds (H := p.H) (A := mA) hV fun c hc => sameLoop_room hH' hmA false hc
  obtain ⟨S2, e2, _, h2⟩ := addDiag_holds h1 fun _ => cfg.sigma
  set s2 := Admm.rhoVecUpdate cfg.rho { old.st with
    x := xg, y := yg, A := matA N M mA, z := matA N M mA *ᵥ xg
    constrType := parseConstr p.Alb p.Aub
    boxType := parseBox p.xlb p.xub } with hs2
  obtain ⟨S3, e3, _, h3⟩ := setDiag_holds h2 (stackVec s2.rhoInvVec)
  refine ⟨⟨{ Admm.factorise { s2 with kkt := matK N M S3 } with
    info := { (Admm.factorise { s2 with kkt := matK N M S3 }).info with status := .UNSOLVED } }, mA, S3⟩, ?_, ?_⟩
  · unfold setup constructA
    simp only [if_true]
    rw [eA, Option.bind_some]
    unfold admmKkt
    simp only [if_true, ← hs2]
    rw [kktSame_eq, e1, Option.bind_some]
    simp only [Bool.false_eq_true, if_false]
    rw [Option.bind_some, e2, Option.bind_some, e3, Option.map_some]
  · show matK N M S3 (Sum.inl c) (Sum.inl c) = _
    rw [matK_apply h3]
    have hk : Admm.kktPos (Sum.inl c : Admm.KktIdx N M) = c := rfl
    rw [hk, kktPat_diag, if_pos rfl, if_neg (show ¬ (N ≤ (c : ℕ) ∧ (c : ℕ) = c) by omega), if_pos ⟨c.2, rfl⟩]
    congr 1
    have hr : rank (kktPat false N (patt p.H) (stackPat M (patt p.A)) c) c = rank (patt p.H c) c := by
      rw [rank_kktPat_top c.2 (le_of_lt c.2)]
      exact rank_congr fun i hi => by
        have : (i == (c : ℕ)) = false := by simp; omega
        rw [this, Bool.or_false]
    rw [hr]
    have hlen := length_filter_lt hH' c.2 (le_of_lt c.2)
    have hle : rank (patt p.H c) c ≤ p.H.cnt c := by rw [hH'.cnt c c.2]; exact rank_mono _ (le_of_lt c.2)
    have hfd := filter_eq_drop (p.H.col c) (holds_fst_pairwise hH' c.2) c
    rw [hlen] at hfd
    unfold below
    rw [hfd]
    by_cases hlt : rank (patt p.H c) c < p.H.cnt c
    · rw [if_pos ⟨c.2, hlt⟩, List.append_assoc, List.headD_eq_head?_getD, List.head?_append, List.head?_map, List.head?_drop, col_getElem?,
        if_pos hlt]
      rfl
    · have heq : rank (patt p.H c) c = p.H.cnt c := by omega
      have hnil : (p.H.col c).drop (rank (patt p.H c) c) = [] := List.drop_eq_nil_of_le (by simp [Csc.col]; omega)
      have hpos : 0 < mA.cnt c := by rw [hmA.cnt c c.2, rank_stackPat M N _ c.2]; omega
      rw [hnil, if_neg (fun hh : (c : ℕ) < N ∧ _ => hlt hh.2), if_pos ⟨c.2, by omega⟩, heq, Nat.sub_self, List.map_nil, List.nil_append,
        Nat.add_zero]
      exact stack_first hA' hmA c.2

/-- C108. If the Hessian stores no entry at `(c, c)`, then after a call on a new object a call with `reuse_pattern`, whose matrices have the
same pattern, works with a KKT matrix that has at `(c, c)` the next value of its column, where the right matrix has zero, plus `sigma`. -/
theorem reuse_missing_diagonal {lin : Admm.KktMat K N M → (Admm.KktIdx N M → K) → (Admm.KktIdx N M → K)} {sq : K → K} {cfg0 cfg : Settings K}
    {q p : SparseQP K N M} {xg0 xg : Fin N → K} {yg0 yg : Fin M ⊕ Fin N → K} {new old : Obj K N M} (hq : WF q.H N N ∧ WF q.A N M)
    (hp : WF p.H N N ∧ WF p.A N M) (hs : SamePattern q p) (h0 : new.st.kkt = 0) (h1 : solve false false lin sq cfg0 q xg0 yg0 new = some old)
    (c : Fin N) (hc : ¬ Stored p.H c c) :
    ∃ o, setup true false cfg p xg yg old = some o ∧ o.st.kkt (Sum.inl c) (Sum.inl c) = (below p c).headD 0 + cfg.sigma ∧
      (Admm.setup false cfg p.toQP xg yg old.st).kkt (Sum.inl c) (Sum.inl c) = 0 + cfg.sigma := by
  have hB := (solve_match (lin := lin) (sq := sq) (cfg := cfg0) (xg := xg0) (yg := yg0) (old := new) (p := q) (reuse := false) (both := false)
    (PH := patt q.H) (PA := patt q.A)
    ⟨⟨_, hq.1.holds⟩, ⟨_, hq.2.holds⟩, fun h => absurd h (by decide), fun _ => by rw [h0]; rfl⟩).2 old h1
  obtain ⟨o, e, hk⟩ := reuse_missing_diagonal_aux (cfg := cfg) (xg := xg) (yg := yg) hp.1 hp.2
    (hB.congr (fun i hi r => (hs.patt.1 i hi r).symm) fun i hi r => (hs.patt.2 i hi r).symm) c hc
  refine ⟨o, e, hk, ?_⟩
  show p.toQP.H c c + (Matrix.diagonal fun _ => cfg.sigma : Matrix (Fin N) (Fin N) K) c c = _
  rw [Matrix.diagonal_apply_eq]
  congr 1
  show p.H.coeff c c = 0
  rw [hp.1.holds.coeff_eq c.2 c, show patt p.H c c = false from decide_eq_false hc]
  rfl

/-! ### Decompositions that read both triangles -/

/-- An entry that exists cannot be inserted. -/
theorem insert_exists {A : Csc K} {n m : ℕ} {P : ℕ → ℕ → Bool} {V : ℕ → ℕ → K} (h : Holds A n m P V) {r c : ℕ} (v : K) (hc : c < n)
    (hP : P c r = true) : A.insert r c v = none := by
  have hrm := h.rows c hc r hP
  have hcnt := h.cnt c hc
  unfold Csc.insert
  by_cases hroom : A.start c + A.cnt c < A.start (c + 1)
  · rw [if_pos hroom]
    obtain ⟨h1, h2, h3, h4, h5, h6⟩ := shift_spec (A.start c) r (A.start c + A.cnt c) (by omega) A.idx A.val
    set s := shift (A.start c) r (A.start c + A.cnt c) A.idx A.val with hs
    have hlt := rank_lt (P c) hP hrm
    have hpos := h.idx c hc r hP
    unfold pos at hpos
    have hq : s.2.2 = A.start c + rank (P c) r + 1 := by
      rcases lt_trichotomy s.2.2 (A.start c + rank (P c) r + 1) with h7 | h7 | h7
      · have := h3 (A.start c + rank (P c) r) (by omega) (by omega)
        omega
      · exact h7
      · obtain ⟨r', hr', hp', e⟩ := exists_rank (P c) (t := s.2.2 - 1 - A.start c) (r := m) (by omega)
        have := h.idx c hc r' hp'
        unfold pos at this
        rw [e, show A.start c + (s.2.2 - 1 - A.start c) = s.2.2 - 1 by omega] at this
        have h8 := h4 (by omega)
        rw [this] at h8
        have := rank_mono (P c) h8
        omega
    simp only
    rw [if_pos]
    refine ⟨by omega, ?_⟩
    rw [h5, if_neg (by omega), hq, Nat.add_sub_cancel]
    exact hpos
  · rw [if_neg hroom]

theorem insertIn_exists {A : Csc K} {n m : ℕ} {P : ℕ → ℕ → Bool} {V : ℕ → ℕ → K} (h : Holds A n m P V) {r c : ℕ} (v : K)
    (hP : c < n → P c r = true) : A.insertIn m n r c v = none := by
  unfold Csc.insertIn
  split_ifs with h1 h2
  · exact insert_exists h v h1.2 (hP h1.2)
  · exact insert_exists (grow_holds h c).1 v h1.2 (hP h1.2)
  · rfl

/-- What an insertion does if it does anything. -/
theorem insertIn_some {A A' : Csc K} {n m : ℕ} {P : ℕ → ℕ → Bool} {V : ℕ → ℕ → K} (h : Holds A n m P V) {r c : ℕ} {v : K}
    (e : A.insertIn m n r c v = some A') : Holds A' n m (fun c' r' => P c' r' || (c' == c && r' == r)) fun r' c' => if c' = c ∧ r' = r then v else V r' c' := by
  have hP : P c r = false := by
    by_contra hP
    rw [insertIn_exists h v fun _ => by simpa using hP] at e
    cases e
  unfold Csc.insertIn at e
  split_ifs at e with h1 h2
  · obtain ⟨B, e', _, hB⟩ := h.insert v h1.2 h1.1 hP (by rw [← h.cnt c h1.2]; exact h2)
    rw [e'] at e
    injection e with e
    rw [← e]; exact hB
  · obtain ⟨hg, hroom⟩ := grow_holds h c
    obtain ⟨B, e', _, hB⟩ := hg.insert v h1.2 h1.1 hP (by rw [← hg.cnt c h1.2]; exact hroom)
    rw [e'] at e
    injection e with e
    rw [← e]; exact hB

/-- The insertion of a block fails if it hits an entry. -/
theorem blockInsert_exists {S : Csc K} {n m ro co k : ℕ} {src : ℕ → List (ℕ × K)} {P : ℕ → ℕ → Bool} {V : ℕ → ℕ → K} (h : Holds S n m P V)
    {e : ℕ × ℕ × K} (he : e ∈ entries k src) (hP : co + e.2.1 < n → P (co + e.2.1) (ro + e.1) = true) : blockInsert m n S ro co k src = none := by
  unfold blockInsert
  generalize entries k src = l at he
  induction l generalizing S P V with
  | nil => exact absurd he (by simp)
  | cons a l ih =>
    rw [List.foldlM_cons]
    rcases List.mem_cons.1 he with rfl | he'
    · rw [insertIn_exists h _ hP]; rfl
    · rcases hi : S.insertIn m n (ro + a.1) (co + a.2.1) a.2.2 with _ | S'
      · rfl
      · exact ih (insertIn_some h hi) (fun hh => by rw [hP hh]; rfl) he'

/-- The insertion of a block fails if it leaves the matrix. -/
theorem blockInsert_range {S : Csc K} {n m ro co k : ℕ} {src : ℕ → List (ℕ × K)} {e : ℕ × ℕ × K} (he : e ∈ entries k src)
    (hP : m ≤ ro + e.1) : blockInsert m n S ro co k src = none := by
  unfold blockInsert
  generalize entries k src = l at he
  induction l generalizing S with
  | nil => exact absurd he (by simp)
  | cons a l ih =>
    rw [List.foldlM_cons]
    rcases List.mem_cons.1 he with rfl | he'
    · unfold Csc.insertIn
      rw [if_neg (by omega)]; rfl
    · rcases hi : S.insertIn m n (ro + a.1) (co + a.2.1) a.2.2 with _ | S'
      · rfl
      · exact ih he'

/-- The insertion of a block does not affect the rows above it. -/
theorem blockInsert_above {S S' : Csc K} {n m ro co k : ℕ} {src : ℕ → List (ℕ × K)} {P : ℕ → ℕ → Bool} {V : ℕ → ℕ → K} (h : Holds S n m P V)
    (e : blockInsert m n S ro co k src = some S') : ∃ P' V', Holds S' n m P' V' ∧ (∀ c r, P c r = true → P' c r = true) ∧
      ∀ r < ro, ∀ c, P' c r = P c r ∧ V' r c = V r c := by
  unfold blockInsert at e
  generalize entries k src = l at e
  induction l generalizing S P V with
  | nil =>
    injection e with e
    rw [← e]
    exact ⟨P, V, h, fun _ _ h => h, fun _ _ _ => ⟨rfl, rfl⟩⟩
  | cons a l ih =>
    rw [List.foldlM_cons] at e
    rcases hi : S.insertIn m n (ro + a.1) (co + a.2.1) a.2.2 with _ | S1
    · rw [hi] at e; cases e
    · rw [hi] at e
      obtain ⟨P', V', h1, h2, h3⟩ := ih (insertIn_some h hi) e
      refine ⟨P', V', h1, fun c r hp => h2 c r (by rw [hp]; rfl), fun r hr c => ?_⟩
      obtain ⟨h4, h5⟩ := h3 r hr c
      have hne : ¬ r = ro + a.1 := by omega
      rw [h4, h5, if_neg (fun hh => hne hh.2)]
      simp [hne]

/-- Changes of the diagonal do not affect the rest. -/
theorem setDiag_off {S S' : Csc K} {R : ℕ} {P : ℕ → ℕ → Bool} {V : ℕ → ℕ → K} (h : Holds S (N + R) (N + R) P V) (hP : ∀ c, P c c = true)
    {d : ℕ → K} (e : setDiag N R d S = some S') : ∃ V', Holds S' (N + R) (N + R) P V' ∧ ∀ r c, r ≠ c → V' r c = V r c := by
  obtain ⟨S1, e1, _, h1⟩ := opSpec_coeffPut.fold h N N R le_rfl le_rfl (fun j hj hp => by rw [hP] at hp; cases hp) fun i => -d i
  obtain rfl : S1 = S' := Option.some.inj (e1.symm.trans e)
  refine ⟨_, h1.congrP fun c hc r => ?_, fun r c hrc => if_neg (show ¬ (N ≤ c ∧ c < N + R ∧ r = N + (c - N)) by omega)⟩
  by_cases hh : N ≤ c ∧ c < N + R ∧ r = N + (c - N)
  · rw [show r = c by omega, hP]; rfl
  · rw [decide_eq_false hh, Bool.or_false]

theorem addDiag_off {S S' : Csc K} {R : ℕ} {P : ℕ → ℕ → Bool} {V : ℕ → ℕ → K} (h : Holds S (N + R) (N + R) P V) (hP : ∀ c, P c c = true)
    {d : ℕ → K} (e : addDiag N d S = some S') : ∃ V', Holds S' (N + R) (N + R) P V' ∧ ∀ r c, r ≠ c → V' r c = V r c := by
  obtain ⟨S1, e1, _, h1⟩ := opSpec_coeffAdd.fold h 0 0 N (by omega) (by omega) (fun j hj hp => by rw [hP] at hp; cases hp) d
  simp only [Nat.zero_add] at e1
  obtain rfl : S1 = S' := Option.some.inj (e1.symm.trans e)
  refine ⟨_, h1.congrP fun c hc r => ?_, fun r c hrc => if_neg (show ¬ (0 ≤ c ∧ c < 0 + N ∧ r = 0 + (c - 0)) by omega)⟩
  by_cases hh : 0 ≤ c ∧ c < 0 + N ∧ r = 0 + (c - 0)
  · rw [show r = c by omega, hP]; rfl
  · rw [decide_eq_false hh, Bool.or_false]

/-- `S'` has the pattern `P` of `S` and its values off the diagonal. -/
def Keeps (n : ℕ) (P : ℕ → ℕ → Bool) (S S' : Csc K) : Prop :=
  ∀ V, Holds S n n P V → ∃ V', Holds S' n n P V' ∧ ∀ r c, r ≠ c → V' r c = V r c

theorem Keeps.refl (n : ℕ) (P : ℕ → ℕ → Bool) (S : Csc K) : Keeps n P S S := fun V h => ⟨V, h, fun _ _ _ => rfl⟩

theorem Keeps.trans {n : ℕ} {P : ℕ → ℕ → Bool} {S1 S2 S3 : Csc K} (h1 : Keeps n P S1 S2) (h2 : Keeps n P S2 S3) : Keeps n P S1 S3 := fun V h => by
  obtain ⟨V1, hV1, e1⟩ := h1 V h
  obtain ⟨V2, hV2, e2⟩ := h2 V1 hV1
  exact ⟨V2, hV2, fun r c hne => (e2 r c hne).trans (e1 r c hne)⟩

section
variable {reuse both : Bool} {lin : Admm.KktMat K N M → (Admm.KktIdx N M → K) → (Admm.KktIdx N M → K)} {sq : K → K} {cfg : Settings K}
  {p : SparseQP K N M} {P : ℕ → ℕ → Bool}

theorem adaptRho_keeps (hP : ∀ c, P c c = true) {o o' : Obj K N M} (h : adaptRho sq cfg o = some o') : Keeps (N + (M + N)) P o.mK o'.mK := by
  unfold adaptRho at h
  simp only at h
  split_ifs at h
  · unfold updateKktRho at h
    rw [Option.map_map, Option.map_eq_some_iff] at h
    obtain ⟨S, hS, rfl⟩ := h
    exact fun V hV => setDiag_off hV hP hS
  · injection h with h; rw [← h]; exact Keeps.refl _ _ _

theorem body_keeps (hP : ∀ c, P c c = true) {iter : ℤ} {o o' : Obj K N M}
    (h : body lin sq cfg p iter o = .brk o' ∨ body lin sq cfg p iter o = .cont o') : Keeps (N + (M + N)) P o.mK o'.mK := by
  unfold body at h
  simp only at h
  generalize (if Admm.checkNow cfg iter = true then Admm.residualsUpdate p.toQP (Admm.admmUpdate lin cfg p.toQP o.st)
    else Admm.admmUpdate lin cfg p.toQP o.st) = st2 at h
  split at h
  · rcases h with h | h
    · injection h with h; rw [← h]; exact Keeps.refl _ _ _
    · cases h
  · split at h
    · split at h
      · rcases h with h | h <;> cases h
      · split at h
        · split at h
          · rcases h with h | h <;> cases h
          · rename_i o1 ho1
            rcases h with h | h
            · cases h
            · injection h with h
              rw [← h]
              have := adaptRho_keeps (P := P) hP ho1
              exact this
        · rcases h with h | h
          · cases h
          · injection h with h; rw [← h]; exact Keeps.refl _ _ _
    · rcases h with h | h
      · cases h
      · injection h with h; rw [← h]; exact Keeps.refl _ _ _

theorem loop_keeps (hP : ∀ c, P c c = true) (n : ℕ) : ∀ (iter : ℤ) {o : Obj K N M} {r : ℤ × Obj K N M}, loop lin sq cfg p n iter o = some r →
    Keeps (N + (M + N)) P o.mK r.2.mK := by
  induction n with
  | zero => intro iter o r h; injection h with h; rw [← h]; exact Keeps.refl _ _ _
  | succ n ih =>
    intro iter o r h
    unfold loop at h
    rcases hb : body lin sq cfg p iter o with _ | o1 | o1 <;> rw [hb] at h
    · cases h
    · injection h with h; rw [← h]; exact body_keeps hP (Or.inl hb)
    · exact (body_keeps hP (Or.inr hb)).trans (ih _ h)

theorem solve_keeps (hP : ∀ c, P c c = true) {xg : Fin N → K} {yg : Fin M ⊕ Fin N → K} {old o : Obj K N M}
    (h : solve reuse both lin sq cfg p xg yg old = some o) : ∃ o0, setup reuse both cfg p xg yg old = some o0 ∧ Keeps (N + (M + N)) P o0.mK o.mK := by
  unfold solve at h
  rcases hs : setup reuse both cfg p xg yg old with _ | o0
  · rw [hs] at h; cases h
  · rw [hs, Option.bind_some] at h
    rcases hl : loop lin sq cfg p cfg.maxIter.toNat 1 o0 with _ | ⟨it, o1⟩
    · rw [hl] at h; cases h
    · rw [hl] at h
      have := loop_keeps hP _ _ hl
      injection h with h
      rw [← h]
      exact ⟨o0, rfl, this⟩

end

theorem kktPat_congr {both : Bool} {PH PA PH' PA' : ℕ → ℕ → Bool} (eH : ∀ c < N, ∀ r, PH c r = PH' c r) (eA : ∀ c < N, ∀ r, PA c r = PA' c r)
    (c r : ℕ) : kktPat both N PH PA c r = kktPat both N PH' PA' c r := by
  unfold kktPat
  by_cases hc : c < N
  · simp only [hc, if_true]
    rw [eH c hc]
    by_cases hr : r < N
    · simp [hr]
    · simp only [hr, if_false]; rw [eA c hc]
  · simp only [hc, if_false]
    by_cases hr : r < N
    · rw [eA r hr]
    · simp [hr]

/-- The second assembly, for a matrix `A` with `R` rows: the rows above `N` of the columns behind `N` do not change. -/
theorem kktSame_stale {H A old S : Csc K} {R : ℕ} {PH PA : ℕ → ℕ → Bool} {MH MA V : ℕ → ℕ → K} (hH : Holds H N N PH MH) (hA : Holds A N R PA MA)
    (hV : Holds old (N + R) (N + R) (kktPat true N PH PA) V) (e : kktSame true N R H A old = some S) :
    ∃ P' V', Holds S (N + R) (N + R) P' V' ∧ (∀ c, P' c c = true) ∧
      ∀ r < N, ∀ c, N ≤ c → P' c r = kktPat true N PH PA c r ∧ V' r c = V r c := by
  obtain ⟨T, eT, sT, cT, hT⟩ := sameLoop_holds (H := H) (A := A) hV fun c hc => sameLoop_room hH hA true hc
  rw [kktSame_eq, eT, Option.bind_some, if_pos rfl] at e
  obtain ⟨P', V', h1, h2, h3⟩ := blockInsert_above hT e
  refine ⟨P', V', h1, fun c => h2 c c (kktPat_diag ..), fun r hr c hc => ?_⟩
  obtain ⟨h4, h5⟩ := h3 r hr c
  refine ⟨h4, ?_⟩
  rw [h5, if_neg (show ¬ (c < N ∧ _) from fun hh => by have := hh.1; omega), if_neg (show ¬ (c < N ∧ _) from fun hh => by have := hh.1; omega)]

/-- C109. With a decomposition that reads both triangles a call with `reuse_pattern` after a call with the same pattern, if it does not fail
an assertion, leaves the upper right block of the KKT matrix as it was in the call before, with the constraint matrix of that call. -/
theorem reuse_both_stale {lin : Admm.KktMat K N M → (Admm.KktIdx N M → K) → (Admm.KktIdx N M → K)} {sq : K → K} {cfg0 cfg : Settings K}
    {q p : SparseQP K N M} {xg0 xg : Fin N → K} {yg0 yg : Fin M ⊕ Fin N → K} {new old o : Obj K N M} (hq : WF q.H N N ∧ WF q.A N M)
    (hp : WF p.H N N ∧ WF p.A N M) (hs : SamePattern q p) (h1 : solve false true lin sq cfg0 q xg0 yg0 new = some old)
    (h2 : setup true true cfg p xg yg old = some o) (i : Fin N) (b : Fin M) :
    o.st.kkt (Sum.inl i) (Sum.inr (Sum.inl b)) = q.A.coeff b i := by
  have hqH := hq.1.holds
  have hqA := hq.2.holds
  have hpH := hp.1.holds
  have hpA := hp.2.holds
  have hB := ((solve_match (lin := lin) (sq := sq) (cfg := cfg0) (xg := xg0) (yg := yg0) (old := new) (p := q) (reuse := false) (both := true)
    (PH := patt q.H) (PA := patt q.A)
    ⟨⟨_, hqH⟩, ⟨_, hqA⟩, fun h => absurd h (by decide), fun h => absurd h (by decide)⟩).2 old h1)
  have hcP : ∀ c < N + (M + N), ∀ r, kktPat true N (patt q.H) (stackPat M (patt q.A)) c r = kktPat true N (patt p.H) (stackPat M (patt p.A)) c r :=
    fun c _ r => kktPat_congr (fun i hi r => (hs.patt.1 i hi r).symm) (fun i hi r => by unfold stackPat; rw [hs.patt.2 i hi]) c r
  -- the first call
  obtain ⟨o0, e0, l⟩ := solve_keeps (P := kktPat true N (patt q.H) (stackPat M (patt q.A))) (fun c => kktPat_diag ..) h1
  unfold setup constructA at e0
  simp only [Bool.false_eq_true, if_false] at e0
  obtain ⟨mA, eA, hmA⟩ := constructAFresh_holds hqA new.mA
  rw [eA, Option.bind_some] at e0
  unfold admmKkt at e0
  simp only [Bool.false_eq_true, if_false] at e0
  rw [Option.map_eq_some_iff] at e0
  obtain ⟨S, eS, rfl⟩ := e0
  obtain ⟨S', eS', _, hS'⟩ := kktFresh_holds hqH hmA true new.mK (fun _ => cfg0.sigma) _
  rw [eS'] at eS
  injection eS with eS
  subst eS
  obtain ⟨V, hV, eV⟩ := l _ hS'
  -- the second call
  have hB' := hB.congr (fun i hi r => (hs.patt.1 i hi r).symm) fun i hi r => (hs.patt.2 i hi r).symm
  obtain ⟨MO, ho⟩ := hB'.a
  obtain ⟨mA', eA', hmA'⟩ := constructAReuse_holds hpA ho
  unfold setup constructA at h2
  simp only [if_true] at h2
  rw [eA', Option.bind_some] at h2
  unfold admmKkt at h2
  simp only [if_true] at h2
  rw [Option.map_eq_some_iff] at h2
  obtain ⟨S3, e3, rfl⟩ := h2
  rw [Option.bind_eq_some_iff] at e3
  obtain ⟨S2, e2, e3⟩ := e3
  rw [Option.bind_eq_some_iff] at e2
  obtain ⟨S1, e1, e2⟩ := e2
  obtain ⟨P', V1, hV1, hd, hk⟩ := kktSame_stale hpH hmA' (hV.congrP hcP) e1
  obtain ⟨V2, hV2, k2⟩ := addDiag_off hV1 hd e2
  obtain ⟨V3, hV3, k3⟩ := setDiag_off hV2 hd e3
  show S3.coeff i (N + b) = _
  have hlt : N + (b : ℕ) < N + (M + N) := by omega
  have hne : (i : ℕ) ≠ N + b := by omega
  obtain ⟨k4, k5⟩ := hk i i.2 (N + b) (by omega)
  rw [hV3.coeff_eq hlt i, k4, k3 _ _ hne, k2 _ _ hne, k5, eV _ _ hne, ← hcP _ hlt, hqA.coeff_eq i.2 b]
  have h1 : ¬ N + (b : ℕ) < N := by omega
  simp only [kktPat, kktVal, h1, if_false, Nat.add_sub_cancel_left, i.2, decide_true, Bool.and_true, hne, stackPat, stackVal, b.2, if_true]
  rw [show ((i : ℕ) == N + b) = false by simpa using hne, Bool.false_or, Bool.true_and]

/-- C109. Such a call fails an assertion if the constraint matrix stores an entry and the one in the transposed place, for instance an entry
of its diagonal. -/
theorem reuse_both_asserts {lin : Admm.KktMat K N M → (Admm.KktIdx N M → K) → (Admm.KktIdx N M → K)} {sq : K → K} {cfg0 cfg : Settings K}
    {q p : SparseQP K N M} {xg0 xg : Fin N → K} {yg0 yg : Fin M ⊕ Fin N → K} {new old : Obj K N M} (hq : WF q.H N N ∧ WF q.A N M)
    (hp : WF p.H N N ∧ WF p.A N M) (hs : SamePattern q p) (h1 : solve false true lin sq cfg0 q xg0 yg0 new = some old)
    {j k : ℕ} (hj : j < N) (hk : k < N) (hs1 : Stored p.A j k) (hs2 : Stored p.A k j) : solve true true lin sq cfg p xg yg old = none := by
  have hqH := hq.1.holds
  have hqA := hq.2.holds
  have hpH := hp.1.holds
  have hpA := hp.2.holds
  have hB := ((solve_match (lin := lin) (sq := sq) (cfg := cfg0) (xg := xg0) (yg := yg0) (old := new) (p := q) (reuse := false) (both := true)
    (PH := patt q.H) (PA := patt q.A)
    ⟨⟨_, hqH⟩, ⟨_, hqA⟩, fun h => absurd h (by decide), fun h => absurd h (by decide)⟩).2 old h1).congr
    (fun i hi r => (hs.patt.1 i hi r).symm) fun i hi r => (hs.patt.2 i hi r).symm
  obtain ⟨MO, ho⟩ := hB.a
  obtain ⟨V, hV⟩ := hB.k
  obtain ⟨mA, eA, hmA⟩ := constructAReuse_holds hpA ho
  obtain ⟨S1, e1, s1, c1, hS1⟩ := sameLoop_holds (H := p.H) (A := mA) hV fun c hc => sameLoop_room hpH hmA true hc
  have hT := transposeCols_isCols hmA
  have hk1 : k < M := hpA.rows j hj k (decide_eq_true hs1)
  have hj1 : j < M := hpA.rows k hk j (decide_eq_true hs2)
  have hins : blockInsert (N + (M + N)) (N + (M + N)) S1 N 0 (M + N) (transposeCols mA N) = none := by
    refine blockInsert_exists hS1 (e := (j, k, stackVal M (fun r c => p.A.coeff r c) k j)) ?_ ?_
    · rw [mem_entries hT]
      refine ⟨by show k < _; omega, hj, ?_, ?_⟩
      · simp only [stackPat, hk1, if_true]; exact decide_eq_true hs1
      · rfl
    · intro _
      simp only [Nat.zero_add]
      unfold kktPat
      rw [if_pos hk, if_neg (by omega), Nat.add_sub_cancel_left]
      simp only [stackPat, hj1, if_true]
      exact decide_eq_true hs2
  unfold solve setup constructA
  simp only [if_true]
  rw [eA, Option.bind_some]
  unfold admmKkt
  simp only [if_true]
  rw [kktSame_eq, e1, Option.bind_some]
  simp only [if_true]
  rw [hins]
  rfl

/-! ### Examples -/

/-- A matrix with one column and at most one entry. -/
def one (n : ℕ) (v : ℚ) : Csc ℚ := { start := fun c => c, cnt := fun _ => n, idx := fun _ => 0, val := fun _ => v }

/-- `min x²/2 - h x` (or `min -h x`, if nothing is stored) with `-2 ≤ a x ≤ 2` and `-2 ≤ x ≤ 2`. -/
def exQP (n : ℕ) (v h a : ℚ) : SparseQP ℚ 1 1 :=
  { H := one n v, h := fun _ => -h, A := one 1 a, Alb := fun _ => -2, Aub := fun _ => 2, xlb := fun _ => -2, xub := fun _ => 2 }

/-- An object that has not been used. -/
def exNew : Obj ℚ 1 1 := ⟨Admm.fresh Admm.exampleCfg (fun _ => 0) (fun _ => 0) 0, one 0 0, one 0 0⟩

/-- A call with cold start. -/
def exCall (reuse : Bool) (p : SparseQP ℚ 1 1) : Call ℚ 1 1 := ⟨reuse, Admm.exampleCfg, p, fun _ => 0, fun _ => 0⟩

theorem one_wf (n : ℕ) (hn : n ≤ 1) (v : ℚ) : WF (one n v) 1 1 := by
  intro c hc
  rcases Nat.le_one_iff_eq_zero_or_eq_one.1 hn with rfl | rfl <;> simp [one, Csc.col]

/-- The hypotheses of C107 for a call and two calls with the same pattern. -/
example : Regular false none [exCall false (exQP 1 1 1 1), exCall true (exQP 1 2 1 3), exCall true (exQP 1 2 3 1)] := by
  have h : ∀ v h a, WF (exQP 1 v h a).H 1 1 ∧ WF (exQP 1 v h a).A 1 1 := fun v h a => ⟨one_wf 1 le_rfl v, one_wf 1 le_rfl a⟩
  have hd : ∀ v h a, ∀ i < 1, Stored (exQP 1 v h a).H i i := fun v h a i hi => by
    obtain rfl : i = 0 := by omega
    simp [Stored, exQP, one, Csc.col]
  have hs : ∀ v h a v' h' a', SamePattern (exQP 1 v h a) (exQP 1 v' h' a') := fun _ _ _ _ _ _ c _ => ⟨rfl, rfl⟩
  exact ⟨h _ _ _, fun h => absurd h (by decide), h _ _ _, fun _ => ⟨rfl, ⟨_, rfl, hs _ _ _ _ _ _⟩, hd _ _ _⟩, h _ _ _,
    fun _ => ⟨rfl, ⟨_, rfl, hs _ _ _ _ _ _⟩, hd _ _ _⟩, trivial⟩

/-- That sequence of calls is defined and ends with SOLVED. -/
example : (sparseRun false Admm.exampleLin id [exCall false (exQP 1 1 1 1), exCall true (exQP 1 2 1 3), exCall true (exQP 1 2 3 1)] exNew).map
    (fun o => o.st.info.status) = some .SOLVED := by decide +kernel

/-- C108 at work: with the Hessian stored as an empty column the second call returns another point than the dense solver. -/
example : (sparseRun false Admm.exampleLin id [exCall false (exQP 0 0 1 1), exCall true (exQP 0 0 1 1)] exNew).map (fun o => o.st.x 0) ≠
    (denseRun false Admm.exampleLin id [exCall false (exQP 0 0 1 1), exCall true (exQP 0 0 1 1)] exNew.st).map (fun s => s.x 0) := by decide +kernel

/-- The entry in question: the coefficient 3 of the constraint. -/
example : (below (exQP 0 0 1 3) 0).headD 0 = 3 := by decide +kernel

/-- C109 at work: the first call is defined, the second fails an assertion. -/
example : (sparseRun true Admm.exampleLin id [exCall false (exQP 1 1 1 1)] exNew).isSome = true ∧
    sparseRun true Admm.exampleLin id [exCall false (exQP 1 1 1 1), exCall true (exQP 1 1 1 1)] exNew = none := by
  constructor
  · decide +kernel
  · exact Option.isNone_iff_eq_none.1 (by decide +kernel)

/-- Identity Hessian and one constraint coefficient, `A(0, 1) = a`. -/
def exStale (a : ℚ) : SparseQP ℚ 2 3 :=
  { H := { start := fun c => c, cnt := fun _ => 1, idx := fun k => k, val := fun _ => 1 }
    h := fun _ => -1
    A := { start := fun c => c - 1, cnt := fun c => if c = 1 then 1 else 0, idx := fun _ => 0, val := fun _ => a }
    Alb := fun _ => -2, Aub := fun _ => 2, xlb := fun _ => -2, xub := fun _ => 2 }

theorem exStale_wf (a : ℚ) : WF (exStale a).H 2 2 ∧ WF (exStale a).A 2 3 := by
  constructor <;> intro c hc <;> interval_cases c <;> simp [exStale, Csc.col]

/-- C109 at work: here the second call passes the assertions and works with the coefficient 1 of the first call in the upper right block, and
with its own coefficient 5 in the lower left block. -/
example : ((solve false true (fun _ b => b) id { Admm.exampleCfg with maxIter := 1 } (exStale 1) 0 0
      ⟨Admm.fresh Admm.exampleCfg (fun _ => 0) (fun _ => 0) 0, one 0 0, one 0 0⟩).bind fun o =>
    (setup true true Admm.exampleCfg (exStale 5) 0 0 o).map fun o =>
      (o.st.kkt (Sum.inl 1) (Sum.inr (Sum.inl 0)), o.st.kkt (Sum.inr (Sum.inl 0)) (Sum.inl 1))) = some (1, 5) := by decide +kernel

end PolyMPC.AdmmSparse
