import Verif.Props.BoxAdmm

/-!
# Property C217: the result of a boxADMM solve does not depend on what the solver object was used for before
-/

set_option linter.unusedSectionVars false

namespace PolyMPC.BoxAdmm
open Matrix PolyMPC.Spec PolyMPC.QPBase
open PolyMPC.Admm (StepResult exampleQP exampleCfg)

variable {K : Type*} [Field K] [LinearOrder K] [IsStrictOrderedRing K] {N M : ℕ}
variable {both : Bool} {lin : KktMat K N M → (KktIdx N M → K) → (KktIdx N M → K)} {sq : K → K} {cfg : Settings K}
  {qp : QP K N M} {xg : Fin N → K} {yg : Fin M ⊕ Fin N → K} {old : State K N M}

/-- The linear solver reads only the triangle it was told to read. -/
def ReadsTriangle (both : Bool) (lin : KktMat K N M → (KktIdx N M → K) → (KktIdx N M → K)) : Prop :=
  ∀ A B, effective both A = effective both B → lin A = lin B

/-- What was in `m_K` before is not seen by the decomposition, if the bottom right block was diagonal. -/
theorem effective_constructKkt_old (sigma : K) (H : Matrix (Fin N) (Fin N) K) (A : Matrix (Fin M) (Fin N) K) (rb : Fin N → K)
    (d : Fin M → K) {o o' : KktMat K N M} (ho : CleanCorner o) (ho' : CleanCorner o') :
    effective both (constructKkt both sigma H A rb d o) = effective both (constructKkt both sigma H A rb d o') := by
  have hc : (Matrix.of fun i j => if i = j then -(d i) else o.toBlocks₂₂ i j) =
      (Matrix.of fun i j => if i = j then -(d i) else o'.toBlocks₂₂ i j : Matrix (Fin M) (Fin M) K) := by
    ext i j
    simp only [Matrix.of_apply]
    by_cases hij : i = j
    · simp only [hij, if_true]
    · simp only [hij, if_false]
      exact (ho i j hij).trans (ho' i j hij).symm
  cases both with
  | true => simp only [effective, constructKkt, if_true, hc]
  | false =>
    simp only [effective, Bool.false_eq_true, if_false]
    ext i j
    unfold readLower
    simp only [constructKkt, hc]
    rcases i with i | i <;> rcases j with j | j
    · rfl
    · have : ¬ kktPos (Sum.inr j : KktIdx N M) ≤ kktPos (Sum.inl i : KktIdx N M) := by
        simp only [kktPos]; omega
      simp only [this, if_false, Matrix.fromBlocks_apply₂₁]
    · have : kktPos (Sum.inl j : KktIdx N M) ≤ kktPos (Sum.inr i : KktIdx N M) := by
        simp only [kktPos]; omega
      simp only [this, if_true, Matrix.fromBlocks_apply₂₁]
    · rfl

/-- Two states that agree in everything observable by the loop. -/
structure Rel (both : Bool) (cfg : Settings K) (qp : QP K N M) (s t : State K N M) : Prop where
  x : s.x = t.x
  y : s.y = t.y
  z : s.z = t.z
  q : s.q = t.q
  rho : s.rho = t.rho
  status : s.info.status = t.info.status
  inv1 : ∃ o, CleanCorner o ∧ StepInv both cfg qp o s
  inv2 : ∃ o, CleanCorner o ∧ StepInv both cfg qp o t

theorem Rel.steps {s t : State K N M} (h : Rel both cfg qp s t) :
    s.rhoVec = t.rhoVec ∧ s.rhoInvVec = t.rhoInvVec ∧ s.rhoVecBox = t.rhoVecBox ∧ s.rhoVecBoxInv = t.rhoVecBoxInv := by
  obtain ⟨o, -, h1⟩ := h.inv1
  obtain ⟨o', -, h2⟩ := h.inv2
  have e1 : s.rhoVec = t.rhoVec := by rw [h1.rv, h2.rv, h1.ct, h2.ct, h.rho]
  have e2 : s.rhoVecBox = t.rhoVecBox := by rw [h1.rb, h2.rb, h1.bt, h2.bt, h.rho]
  exact ⟨e1, by rw [h1.ri, h2.ri, e1], e2, by rw [h1.rbi, h2.rbi, e2]⟩

theorem Rel.lin_eq (hl : ReadsTriangle both lin) {s t : State K N M} (h : Rel both cfg qp s t) :
    lin s.fact = lin t.fact := by
  obtain ⟨-, e2, e3, -⟩ := h.steps
  obtain ⟨o, c1, h1⟩ := h.inv1
  obtain ⟨o', c2, h2⟩ := h.inv2
  apply hl
  rw [h1.fact, h2.fact, h1.kkt, h2.kkt, e2, e3]
  exact effective_constructKkt_old _ _ _ _ _ c1 c2

theorem Rel.admmUpdate (hl : ReadsTriangle both lin) {s t : State K N M} (h : Rel both cfg qp s t) :
    Rel both cfg qp (admmUpdate lin cfg qp s) (admmUpdate lin cfg qp t) := by
  obtain ⟨e1, e2, e3, e4⟩ := h.steps
  have hlin := h.lin_eq hl
  obtain ⟨o, c1, h1⟩ := h.inv1
  obtain ⟨o', c2, h2⟩ := h.inv2
  refine ⟨?_, ?_, ?_, ?_, h.rho, h.status, ⟨o, c1, h1.ct, h1.bt, h1.rv, h1.rb, h1.ri, h1.rbi, h1.kkt, h1.fact⟩,
    ⟨o', c2, h2.ct, h2.bt, h2.rv, h2.rb, h2.ri, h2.rbi, h2.kkt, h2.fact⟩⟩ <;>
    simp only [BoxAdmm.admmUpdate, kktRhs, hlin, h.x, h.y, h.z, h.q, e1, e2, e3, e4]

theorem Rel.residualsUpdate {s t : State K N M} (h : Rel both cfg qp s t) :
    Rel both cfg qp (residualsUpdate qp s) (residualsUpdate qp t) ∧
    (BoxAdmm.residualsUpdate qp s).info.resPrim = (BoxAdmm.residualsUpdate qp t).info.resPrim ∧
    (BoxAdmm.residualsUpdate qp s).info.resDual = (BoxAdmm.residualsUpdate qp t).info.resDual ∧
    (BoxAdmm.residualsUpdate qp s).maxAxZ = (BoxAdmm.residualsUpdate qp t).maxAxZ ∧
    (BoxAdmm.residualsUpdate qp s).maxHxATyh = (BoxAdmm.residualsUpdate qp t).maxHxATyh := by
  obtain ⟨o, c1, h1⟩ := h.inv1
  obtain ⟨o', c2, h2⟩ := h.inv2
  refine ⟨⟨h.x, h.y, h.z, h.q, h.rho, h.status, ⟨o, c1, h1.ct, h1.bt, h1.rv, h1.rb, h1.ri, h1.rbi, h1.kkt, h1.fact⟩,
    ⟨o', c2, h2.ct, h2.bt, h2.rv, h2.rb, h2.ri, h2.rbi, h2.kkt, h2.fact⟩⟩, ?_, ?_, ?_, ?_⟩ <;>
    simp only [BoxAdmm.residualsUpdate, h.x, h.y, h.z, h.q]

theorem Rel.adaptRho {s t : State K N M} (h : Rel both cfg qp s t) :
    Rel both cfg qp (adaptRho sq cfg (BoxAdmm.residualsUpdate qp s)) (adaptRho sq cfg (BoxAdmm.residualsUpdate qp t)) := by
  obtain ⟨h0, e1, e2, e3, e4⟩ := h.residualsUpdate
  obtain ⟨o, c1, h1⟩ := h0.inv1
  obtain ⟨o', c2, h2⟩ := h0.inv2
  have hes : ∀ r, estimateRho sq (BoxAdmm.residualsUpdate qp s) r = estimateRho sq (BoxAdmm.residualsUpdate qp t) r := by
    intro r; simp only [estimateRho, e1, e2, e3, e4]
  refine ⟨?_, ?_, ?_, ?_, ?_, ?_, ⟨o, c1, stepInv_adaptRho h1⟩, ⟨o', c2, stepInv_adaptRho h2⟩⟩
  · rw [(sameIter_adaptRho _).1, (sameIter_adaptRho _).1]; exact h0.x
  · rw [(sameIter_adaptRho _).2.1, (sameIter_adaptRho _).2.1]; exact h0.y
  · rw [(sameIter_adaptRho _).2.2.1, (sameIter_adaptRho _).2.2.1]; exact h0.z
  · rw [(sameIter_adaptRho _).2.2.2.1, (sameIter_adaptRho _).2.2.2.1]; exact h0.q
  · unfold BoxAdmm.adaptRho
    rw [hes, h0.rho]
    simp only
    split_ifs <;> first | rfl | exact h0.rho
  · unfold BoxAdmm.adaptRho
    rw [hes, h0.rho]
    simp only
    split_ifs <;> exact h0.status

/-- The reported residuals agree. -/
def SameResiduals (s t : State K N M) : Prop := s.info.resPrim = t.info.resPrim ∧ s.info.resDual = t.info.resDual

theorem adaptRho_residuals (s : State K N M) : (adaptRho sq cfg s).info.resPrim = s.info.resPrim ∧
    (adaptRho sq cfg s).info.resDual = s.info.resDual := by
  rcases adaptRho_cases sq cfg s with ⟨r, _, _, h⟩ | ⟨r, h⟩ <;> rw [h] <;> exact ⟨rfl, rfl⟩

theorem rel_body (hl : ReadsTriangle both lin) {it : ℤ} {s t : State K N M} (h : Rel both cfg qp s t) :
    (body lin sq cfg qp it s = .ub ∧ body lin sq cfg qp it t = .ub) ∨
    (∃ s' t', body lin sq cfg qp it s = .brk s' ∧ body lin sq cfg qp it t = .brk t' ∧ Rel both cfg qp s' t' ∧
      SameResiduals s' t') ∨
    (∃ s' t', body lin sq cfg qp it s = .cont s' ∧ body lin sq cfg qp it t = .cont t' ∧ Rel both cfg qp s' t' ∧
      (SameResiduals s t ∨ checkNow cfg it = true → SameResiduals s' t')) := by
  have hu := h.admmUpdate hl
  obtain ⟨hru, e1, e2, e3, e4⟩ := hu.residualsUpdate
  have htc : terminationCriteria cfg (residualsUpdate qp (admmUpdate lin cfg qp s)) =
      terminationCriteria cfg (residualsUpdate qp (admmUpdate lin cfg qp t)) := by
    unfold terminationCriteria epsPrim epsDual
    rw [e1, e2, e3, e4]
  have had := hu.adaptRho (sq := sq)
  have hsr : SameResiduals (BoxAdmm.adaptRho sq cfg (BoxAdmm.residualsUpdate qp (BoxAdmm.admmUpdate lin cfg qp s)))
      (BoxAdmm.adaptRho sq cfg (BoxAdmm.residualsUpdate qp (BoxAdmm.admmUpdate lin cfg qp t))) := by
    refine ⟨?_, ?_⟩
    · rw [(adaptRho_residuals _).1, (adaptRho_residuals _).1]; exact e1
    · rw [(adaptRho_residuals _).2, (adaptRho_residuals _).2]; exact e2
  unfold body
  cases hc : checkNow cfg it with
  | true =>
    simp only [if_true, Bool.true_and]
    rw [htc]
    cases ht : terminationCriteria cfg (residualsUpdate qp (admmUpdate lin cfg qp t)) with
    | true =>
      right; left
      simp only [if_true]
      obtain ⟨o, c1, h1⟩ := hru.inv1
      obtain ⟨o', c2, h2⟩ := hru.inv2
      exact ⟨_, _, rfl, rfl, ⟨hru.x, hru.y, hru.z, hru.q, hru.rho, rfl,
        ⟨o, c1, h1.ct, h1.bt, h1.rv, h1.rb, h1.ri, h1.rbi, h1.kkt, h1.fact⟩,
        ⟨o', c2, h2.ct, h2.bt, h2.rv, h2.rb, h2.ri, h2.rbi, h2.kkt, h2.fact⟩⟩, e1, e2⟩
    | false =>
      simp only [Bool.false_eq_true, if_false]
      cases ha : cfg.adaptiveRho with
      | false => right; right; simp only [Bool.false_eq_true, if_false]; exact ⟨_, _, rfl, rfl, hru, fun _ => ⟨e1, e2⟩⟩
      | true =>
        simp only [if_true]
        by_cases h0 : cfg.adaptiveRhoInterval = 0
        · left; simp [h0]
        · right; right
          simp only [h0, if_false]
          by_cases hm : it.tmod cfg.adaptiveRhoInterval = 0
          · simp only [hm, if_true]; exact ⟨_, _, rfl, rfl, had, fun _ => hsr⟩
          · simp only [hm, if_false]; exact ⟨_, _, rfl, rfl, hru, fun _ => ⟨e1, e2⟩⟩
  | false =>
    simp only [Bool.false_and, Bool.false_eq_true, if_false]
    cases ha : cfg.adaptiveRho with
    | false => right; right; simp only [Bool.false_eq_true, if_false]; exact ⟨_, _, rfl, rfl, hu, fun h => h.elim id False.elim⟩
    | true =>
      simp only [if_true]
      by_cases h0 : cfg.adaptiveRhoInterval = 0
      · left; simp [h0]
      · right; right
        simp only [h0, if_false]
        by_cases hm : it.tmod cfg.adaptiveRhoInterval = 0
        · simp only [hm, if_true]; exact ⟨_, _, rfl, rfl, had, fun _ => hsr⟩
        · simp only [hm, if_false]; exact ⟨_, _, rfl, rfl, hu, fun h => h.elim id False.elim⟩

theorem rel_loop (hl : ReadsTriangle both lin) (n : ℕ) : ∀ (it : ℤ) {s t : State K N M}, Rel both cfg qp s t →
    (loop lin sq cfg qp n it s = none ∧ loop lin sq cfg qp n it t = none) ∨
    (∃ it' s' t', loop lin sq cfg qp n it s = some (it', s') ∧ loop lin sq cfg qp n it t = some (it', t') ∧
      Rel both cfg qp s' t' ∧ (it' = it + n ∨ SameResiduals s' t') ∧
      ((SameResiduals s t ∨ ∃ k, it ≤ k ∧ k < it + n ∧ checkNow cfg k = true) → SameResiduals s' t')) := by
  induction n with
  | zero =>
    intro it s t h
    refine Or.inr ⟨it, s, t, rfl, rfl, h, Or.inl (by simp), ?_⟩
    rintro (h' | ⟨k, h1, h2, -⟩)
    · exact h'
    · simp only [Nat.cast_zero, add_zero] at h2; omega
  | succ n ih =>
    intro it s t h
    simp only [loop]
    rcases rel_body (sq := sq) (it := it) hl h with ⟨h1, h2⟩ | ⟨s', t', h1, h2, h3, h4⟩ | ⟨s', t', h1, h2, h3, h4⟩
    · rw [h1, h2]; exact Or.inl ⟨rfl, rfl⟩
    · rw [h1, h2]; exact Or.inr ⟨it, s', t', rfl, rfl, h3, Or.inr h4, fun _ => h4⟩
    · rw [h1, h2]
      rcases ih (it + 1) h3 with h5 | ⟨it', s'', t'', h5, h6, h7, h8, h9⟩
      · exact Or.inl h5
      · refine Or.inr ⟨it', s'', t'', h5, h6, h7, ?_, ?_⟩
        · rcases h8 with h8 | h8
          · left; rw [h8]; push_cast; ring
          · exact Or.inr h8
        · rintro (h' | ⟨k, k1, k2, k3⟩)
          · exact h9 (Or.inl (h4 (Or.inl h')))
          · rcases eq_or_lt_of_le k1 with rfl | hlt
            · exact h9 (Or.inl (h4 (Or.inr k3)))
            · exact h9 (Or.inr ⟨k, by omega, by push_cast at k2; omega, k3⟩)

/-- **C217.** Two boxADMM objects that have been used for anything before (only the off-diagonal entries of the bottom right block of
their KKT matrix are zero, which holds for new objects and is kept by every solve, `cleanCorner_solve`), called with the same data,
settings and guess, return the same primal and dual vectors, auxiliary vectors, step size, status and iteration count (or both calls
are undefined). The reported residuals agree if the status is SOLVED or at least one pass tested for termination. -/
theorem solve_history_independent (hl : ReadsTriangle both lin) {old1 old2 : State K N M} (c1 : CleanCorner old1.kkt)
    (c2 : CleanCorner old2.kkt) :
    (solve both lin sq cfg qp xg yg old1 = none ∧ solve both lin sq cfg qp xg yg old2 = none) ∨
    (∃ s1 s2, solve both lin sq cfg qp xg yg old1 = some s1 ∧ solve both lin sq cfg qp xg yg old2 = some s2 ∧
      s1.x = s2.x ∧ s1.y = s2.y ∧ s1.z = s2.z ∧ s1.q = s2.q ∧ s1.rho = s2.rho ∧ s1.info.status = s2.info.status ∧
      s1.info.iter = s2.info.iter ∧
      (s1.info.status = .SOLVED ∨ (1 ≤ cfg.checkTermination ∧ cfg.checkTermination ≤ cfg.maxIter) →
        s1.info.resPrim = s2.info.resPrim ∧ s1.info.resDual = s2.info.resDual)) := by
  have h0 : Rel both cfg qp (setup both cfg qp xg yg old1) (setup both cfg qp xg yg old2) :=
    ⟨rfl, rfl, rfl, rfl, rfl, rfl, ⟨_, c1, stepInv_setup⟩, ⟨_, c2, stepInv_setup⟩⟩
  unfold solve
  rcases rel_loop (sq := sq) hl cfg.maxIter.toNat 1 h0 with ⟨h1, h2⟩ | ⟨it', s', t', h1, h2, h3, h4, h5⟩
  · rw [h1, h2]; exact Or.inl ⟨rfl, rfl⟩
  · rw [h1, h2]
    right
    refine ⟨_, _, rfl, rfl, ?_⟩
    have hchk : 1 ≤ cfg.checkTermination ∧ cfg.checkTermination ≤ cfg.maxIter → SameResiduals s' t' := by
      rintro ⟨k1, k2⟩
      refine h5 (Or.inr ⟨cfg.checkTermination, k1, by have := Int.self_le_toNat cfg.maxIter; omega, ?_⟩)
      have : cfg.checkTermination ≠ 0 := by omega
      simp [checkNow, this]
    by_cases hgt : it' > cfg.maxIter
    · simp only [hgt, if_true]
      refine ⟨h3.x, h3.y, h3.z, h3.q, h3.rho, trivial, trivial, ?_⟩
      rintro (h | h)
      · cases h
      · exact hchk h
    · simp only [hgt, if_false]
      refine ⟨h3.x, h3.y, h3.z, h3.q, h3.rho, h3.status, trivial, ?_⟩
      rintro (_ | h)
      · rcases h4 with h4 | h4
        · have := Int.self_le_toNat cfg.maxIter
          omega
        · exact h4
      · exact hchk h

/-- C217 on two consecutive calls: repeating a call on the object it has just been made on gives the same answer. -/
theorem solve_twice (hl : ReadsTriangle both lin) {s1 s2 : State K N M} (c : CleanCorner old.kkt)
    (h1 : solve both lin sq cfg qp xg yg old = some s1) (h2 : solve both lin sq cfg qp xg yg s1 = some s2) :
    s2.x = s1.x ∧ s2.y = s1.y ∧ s2.info.status = s1.info.status ∧ s2.info.iter = s1.info.iter := by
  rcases solve_history_independent (sq := sq) (cfg := cfg) (qp := qp) (xg := xg) (yg := yg) hl c (cleanCorner_solve c h1) with
    ⟨h, _⟩ | ⟨a, b, ha, hb, e1, e2, _, _, _, e3, e4, _⟩
  · rw [h] at h1; cases h1
  · rw [h1] at ha; rw [h2] at hb; cases ha; cases hb
    exact ⟨e1.symm, e2.symm, e3.symm, e4.symm⟩

/-- The calls that can be made on an object: `solve` with any data, settings and guesses. -/
inductive Used (both : Bool) (lin : KktMat K N M → (KktIdx N M → K) → (KktIdx N M → K)) (sq : K → K) : State K N M → Prop
  | new (cfg : Settings K) (v : Fin M → K) (x : Fin N → K) (c : K) : Used both lin sq (fresh cfg v x c)
  | call {s s' : State K N M} {cfg : Settings K} {qp : QP K N M} {xg : Fin N → K} {yg : Fin M ⊕ Fin N → K}
      (h : Used both lin sq s) (hs : solve both lin sq cfg qp xg yg s = some s') : Used both lin sq s'

theorem Used.cleanCorner {s : State K N M} (h : Used both lin sq s) : CleanCorner s.kkt := by
  induction h with
  | new cfg v x c => exact cleanCorner_fresh cfg v x c
  | call _ hs ih => exact cleanCorner_solve ih hs

/-- C217 for objects and their histories: any two objects, after any sequences of calls with any data and settings, solve the same
QP with the same result. -/
theorem used_solve_eq (hl : ReadsTriangle both lin) {old1 old2 : State K N M} (u1 : Used both lin sq old1) (u2 : Used both lin sq old2) :
    (solve both lin sq cfg qp xg yg old1).map (fun s => (s.x, s.y, s.info.status, s.info.iter)) =
      (solve both lin sq cfg qp xg yg old2).map (fun s => (s.x, s.y, s.info.status, s.info.iter)) := by
  rcases solve_history_independent (sq := sq) (cfg := cfg) (qp := qp) (xg := xg) (yg := yg) hl u1.cleanCorner u2.cleanCorner with
    ⟨h1, h2⟩ | ⟨a, b, ha, hb, e1, e2, -, -, -, e3, e4, -⟩
  · rw [h1, h2]
  · rw [ha, hb]
    simp only [Option.map_some, e1, e2, e3, e4]

/-! ### Residuals reported without a test -/

theorem loop_keeps_residuals (hct : cfg.checkTermination = 0) (har : cfg.adaptiveRho = false) (n : ℕ) :
    ∀ (it : ℤ) (s : State K N M), ∃ s', loop lin sq cfg qp n it s = some (it + n, s') ∧ s'.info.resPrim = s.info.resPrim ∧
      s'.info.resDual = s.info.resDual := by
  induction n with
  | zero => intro it s; exact ⟨s, by simp [loop], rfl, rfl⟩
  | succ n ih =>
    intro it s
    have hb : body lin sq cfg qp it s = .cont (admmUpdate lin cfg qp s) := by
      have hc : checkNow cfg it = false := by simp [checkNow, hct]
      simp [body, hc, har]
    obtain ⟨s', h1, h2, h3⟩ := ih (it + 1) (admmUpdate lin cfg qp s)
    refine ⟨s', ?_, h2, h3⟩
    simp only [loop, hb]
    rw [h1]
    have : it + 1 + (n : ℤ) = it + ((n + 1 : ℕ) : ℤ) := by push_cast; ring
    rw [this]

/-- C217, the exception: with `check_termination = 0` and a fixed step size a call runs all its iterations and leaves `res_prim` and
`res_dual` of the returned information as the previous call on the object left them. -/
theorem residuals_of_previous_call (hct : cfg.checkTermination = 0) (har : cfg.adaptiveRho = false) :
    ∃ s, solve both lin sq cfg qp xg yg old = some s ∧ s.info.status = .MAX_ITER_EXCEEDED ∧
      s.info.resPrim = old.info.resPrim ∧ s.info.resDual = old.info.resDual := by
  obtain ⟨s', h1, h2, h3⟩ := loop_keeps_residuals (lin := lin) (sq := sq) (qp := qp) hct har cfg.maxIter.toNat 1 (setup both cfg qp xg yg old)
  have hgt : (1 : ℤ) + (cfg.maxIter.toNat : ℤ) > cfg.maxIter := by have := Int.self_le_toNat cfg.maxIter; omega
  refine ⟨{ s' with info := { s'.info with status := .MAX_ITER_EXCEEDED, iter := 1 + (cfg.maxIter.toNat : ℤ) } }, ?_, ?_⟩
  · unfold solve
    rw [h1]
    simp only [hgt, if_true]
  · exact ⟨rfl, h2, h3⟩

/-! ### Non-vacuity -/

/-- The inverse of the triangle that is read is a solver that meets the assumption. -/
example (both : Bool) : ReadsTriangle (K := K) (N := N) (M := M) both (fun A b => (effective both A)⁻¹ *ᵥ b) := by
  intro A B h; funext b; simp only [h]

/-- The example QP solved by a new object and by one that has solved another QP before: the same iteration count and solution. -/
example :
    ((solve false exampleLin id exampleCfg { exampleQP with h := fun _ => 5 } (fun _ => 2) (fun _ => 1)
      (fresh exampleCfg (fun _ => 0) (fun _ => 0) 0)).bind fun s => (solve false exampleLin id exampleCfg exampleQP (fun _ => 0) (fun _ => 0) s).map
        fun s => (s.info.status, s.info.iter, s.x 0)) =
      ((solve false exampleLin id exampleCfg exampleQP (fun _ => 0) (fun _ => 0) (fresh exampleCfg (fun _ => 0) (fun _ => 0) 0)).map
        fun s => (s.info.status, s.info.iter, s.x 0)) ∧
    ((solve false exampleLin id exampleCfg exampleQP (fun _ => 0) (fun _ => 0) (fresh exampleCfg (fun _ => 0) (fun _ => 0) 0)).map
        fun s => s.info.status) = some .SOLVED := by
  decide +kernel

/-- The exception occurs: without tests for termination, the same call on two objects reports different residuals. -/
example :
    let cfg0 : Settings ℚ := { exampleCfg with checkTermination := 0, adaptiveRho := false, maxIter := 2 }
    ((solve false exampleLin id exampleCfg exampleQP (fun _ => 0) (fun _ => 0) (fresh exampleCfg (fun _ => 0) (fun _ => 0) 0)).bind fun s =>
      (solve false exampleLin id cfg0 { exampleQP with h := fun _ => 5 } (fun _ => 0) (fun _ => 0) s).map fun s => s.info.resPrim) ≠
    ((solve false exampleLin id cfg0 { exampleQP with h := fun _ => 5 } (fun _ => 0) (fun _ => 0) (fresh exampleCfg (fun _ => 0) (fun _ => 0) 0)).map
      fun s => s.info.resPrim) := by
  decide +kernel

end PolyMPC.BoxAdmm
