import Verif.Props.AdmmOptimality
import Verif.Props.BoxAdmm

/-!
# Property C63: the result of a solve does not depend on what the solver object was used for before
-/

set_option linter.unusedSectionVars false

namespace PolyMPC.Admm
open Matrix PolyMPC.Spec PolyMPC.QPBase

variable {K : Type*} [Field K] [LinearOrder K] [IsStrictOrderedRing K] {N M : ℕ}
variable {both : Bool} {lin : KktMat K N M → (KktIdx N M → K) → (KktIdx N M → K)} {sq : K → K} {cfg : Settings K}
  {qp : QP K N M} {xg : Fin N → K} {yg : Fin M ⊕ Fin N → K}

/-- The linear solver reads only the triangle it was told to read. -/
def ReadsTriangle (both : Bool) (lin : KktMat K N M → (KktIdx N M → K) → (KktIdx N M → K)) : Prop :=
  ∀ A B, effective both A = effective both B → lin A = lin B

theorem effective_eq_of_topRight (P : Matrix (Fin N) (Fin N) K) (A : Matrix (Fin M ⊕ Fin N) (Fin N) K)
    (T1 T2 : Matrix (Fin N) (Fin M ⊕ Fin N) K) (D : Matrix (Fin M ⊕ Fin N) (Fin M ⊕ Fin N) K) :
    effective both (Matrix.fromBlocks P (if both then Aᵀ else T1) A D) =
      effective both (Matrix.fromBlocks P (if both then Aᵀ else T2) A D) := by
  cases both with
  | true => rfl
  | false =>
    simp only [effective, Bool.false_eq_true, if_false]
    ext i j
    unfold readLower
    rcases i with i | i <;> rcases j with j | j
    · rfl
    · have : ¬ kktPos (Sum.inr j : KktIdx N M) ≤ kktPos (Sum.inl i : KktIdx N M) := by
        rcases j with j | j <;> simp only [kktPos] <;> omega
      simp only [this, if_false, Matrix.fromBlocks_apply₂₁]
    · have : kktPos (Sum.inl j : KktIdx N M) ≤ kktPos (Sum.inr i : KktIdx N M) := by
        rcases i with i | i <;> simp only [kktPos] <;> omega
      simp only [this, if_true, Matrix.fromBlocks_apply₂₁]
    · rfl

/-- Two states that agree in everything observable by the loop. -/
structure Rel (both : Bool) (cfg : Settings K) (qp : QP K N M) (s t : State K N M) : Prop where
  x : s.x = t.x
  y : s.y = t.y
  z : s.z = t.z
  rho : s.rho = t.rho
  status : s.info.status = t.info.status
  inv1 : ∃ T, StepInv both cfg qp T s
  inv2 : ∃ T, StepInv both cfg qp T t

theorem Rel.rhoVec {s t : State K N M} (h : Rel both cfg qp s t) : s.rhoVec = t.rhoVec := by
  obtain ⟨T, h1⟩ := h.inv1
  obtain ⟨T', h2⟩ := h.inv2
  rw [h1.rv, h2.rv, h1.ct, h2.ct, h1.bt, h2.bt, h.rho]

theorem Rel.rhoInvVec {s t : State K N M} (h : Rel both cfg qp s t) : s.rhoInvVec = t.rhoInvVec := by
  obtain ⟨T, h1⟩ := h.inv1
  obtain ⟨T', h2⟩ := h.inv2
  rw [h1.ri, h2.ri, h.rhoVec]

theorem Rel.lin_eq (hl : ReadsTriangle both lin) {s t : State K N M} (h : Rel both cfg qp s t) :
    lin s.fact = lin t.fact := by
  obtain ⟨T, h1⟩ := h.inv1
  obtain ⟨T', h2⟩ := h.inv2
  apply hl
  rw [h1.fact, h2.fact, h1.kkt, h2.kkt, h.rhoInvVec]
  exact effective_eq_of_topRight _ _ _ _ _

theorem Rel.admmUpdate (hl : ReadsTriangle both lin) {s t : State K N M} (h : Rel both cfg qp s t) :
    Rel both cfg qp (admmUpdate lin cfg qp s) (admmUpdate lin cfg qp t) := by
  have hr := h.rhoVec
  have hri := h.rhoInvVec
  have hlin := h.lin_eq hl
  obtain ⟨T, h1⟩ := h.inv1
  obtain ⟨T', h2⟩ := h.inv2
  refine ⟨?_, ?_, ?_, h.rho, h.status, ⟨T, h1.ct, h1.bt, h1.hA, h1.rv, h1.ri, h1.kkt, h1.fact⟩,
    ⟨T', h2.ct, h2.bt, h2.hA, h2.rv, h2.ri, h2.kkt, h2.fact⟩⟩ <;>
    simp only [Admm.admmUpdate, kktRhs, hlin, h.x, h.y, h.z, hr, hri]

theorem Rel.residualsUpdate {s t : State K N M} (h : Rel both cfg qp s t) :
    Rel both cfg qp (residualsUpdate qp s) (residualsUpdate qp t) ∧
    (Admm.residualsUpdate qp s).info.resPrim = (Admm.residualsUpdate qp t).info.resPrim ∧
    (Admm.residualsUpdate qp s).info.resDual = (Admm.residualsUpdate qp t).info.resDual ∧
    (Admm.residualsUpdate qp s).maxAxZ = (Admm.residualsUpdate qp t).maxAxZ ∧
    (Admm.residualsUpdate qp s).maxHxATyh = (Admm.residualsUpdate qp t).maxHxATyh := by
  obtain ⟨T, h1⟩ := h.inv1
  obtain ⟨T', h2⟩ := h.inv2
  refine ⟨⟨h.x, h.y, h.z, h.rho, h.status, ⟨T, h1.ct, h1.bt, h1.hA, h1.rv, h1.ri, h1.kkt, h1.fact⟩,
    ⟨T', h2.ct, h2.bt, h2.hA, h2.rv, h2.ri, h2.kkt, h2.fact⟩⟩, ?_, ?_, ?_, ?_⟩ <;>
    simp only [Admm.residualsUpdate, h.x, h.y, h.z]

theorem Rel.adaptRho {s t : State K N M} (h : Rel both cfg qp s t) :
    Rel both cfg qp (adaptRho sq cfg (Admm.residualsUpdate qp s)) (adaptRho sq cfg (Admm.residualsUpdate qp t)) := by
  obtain ⟨h0, e1, e2, e3, e4⟩ := h.residualsUpdate
  obtain ⟨T, h1⟩ := h0.inv1
  obtain ⟨T', h2⟩ := h0.inv2
  have hes : ∀ r, estimateRho sq (Admm.residualsUpdate qp s) r = estimateRho sq (Admm.residualsUpdate qp t) r := by
    intro r; simp only [estimateRho, e1, e2, e3, e4]
  refine ⟨?_, ?_, ?_, ?_, ?_, ⟨T, stepInv_adaptRho h1⟩, ⟨T', stepInv_adaptRho h2⟩⟩
  · rw [(sameIter_adaptRho _).1, (sameIter_adaptRho _).1]; exact h0.x
  · rw [(sameIter_adaptRho _).2.1, (sameIter_adaptRho _).2.1]; exact h0.y
  · rw [(sameIter_adaptRho _).2.2.1, (sameIter_adaptRho _).2.2.1]; exact h0.z
  · unfold Admm.adaptRho
    rw [hes, h0.rho]
    simp only
    split_ifs <;> first | rfl | exact h0.rho
  · unfold Admm.adaptRho
    rw [hes, h0.rho]
    simp only
    split_ifs <;> exact h0.status

theorem rel_body (hl : ReadsTriangle both lin) {it : ℤ} {s t : State K N M} (h : Rel both cfg qp s t) :
    (body lin sq cfg qp it s = .ub ∧ body lin sq cfg qp it t = .ub) ∨
    (∃ s' t', body lin sq cfg qp it s = .brk s' ∧ body lin sq cfg qp it t = .brk t' ∧ Rel both cfg qp s' t') ∨
    (∃ s' t', body lin sq cfg qp it s = .cont s' ∧ body lin sq cfg qp it t = .cont t' ∧ Rel both cfg qp s' t') := by
  have hu := h.admmUpdate hl
  obtain ⟨hru, e1, e2, e3, e4⟩ := hu.residualsUpdate
  have htc : terminationCriteria cfg (residualsUpdate qp (admmUpdate lin cfg qp s)) =
      terminationCriteria cfg (residualsUpdate qp (admmUpdate lin cfg qp t)) := by
    unfold terminationCriteria epsPrim epsDual
    rw [e1, e2, e3, e4]
  have had := hu.adaptRho (sq := sq)
  unfold body
  cases hc : checkNow cfg it with
  | true =>
    simp only [if_true, Bool.true_and]
    rw [htc]
    cases ht : terminationCriteria cfg (residualsUpdate qp (admmUpdate lin cfg qp t)) with
    | true =>
      right; left
      simp only [if_true]
      obtain ⟨T, h1⟩ := hru.inv1
      obtain ⟨T', h2⟩ := hru.inv2
      exact ⟨_, _, rfl, rfl, hru.x, hru.y, hru.z, hru.rho, rfl, ⟨T, h1.ct, h1.bt, h1.hA, h1.rv, h1.ri, h1.kkt, h1.fact⟩,
        ⟨T', h2.ct, h2.bt, h2.hA, h2.rv, h2.ri, h2.kkt, h2.fact⟩⟩
    | false =>
      simp only [Bool.false_eq_true, if_false]
      cases ha : cfg.adaptiveRho with
      | false => right; right; simp only [Bool.false_eq_true, if_false]; exact ⟨_, _, rfl, rfl, hru⟩
      | true =>
        simp only [if_true]
        by_cases h0 : cfg.adaptiveRhoInterval = 0
        · left; simp [h0]
        · right; right
          simp only [h0, if_false]
          by_cases hm : it.tmod cfg.adaptiveRhoInterval = 0
          · simp only [hm, if_true]; exact ⟨_, _, rfl, rfl, had⟩
          · simp only [hm, if_false]; exact ⟨_, _, rfl, rfl, hru⟩
  | false =>
    simp only [Bool.false_and, Bool.false_eq_true, if_false]
    cases ha : cfg.adaptiveRho with
    | false => right; right; simp only [Bool.false_eq_true, if_false]; exact ⟨_, _, rfl, rfl, hu⟩
    | true =>
      simp only [if_true]
      by_cases h0 : cfg.adaptiveRhoInterval = 0
      · left; simp [h0]
      · right; right
        simp only [h0, if_false]
        by_cases hm : it.tmod cfg.adaptiveRhoInterval = 0
        · simp only [hm, if_true]; exact ⟨_, _, rfl, rfl, had⟩
        · simp only [hm, if_false]; exact ⟨_, _, rfl, rfl, hu⟩

theorem rel_loop (hl : ReadsTriangle both lin) (n : ℕ) : ∀ (it : ℤ) {s t : State K N M}, Rel both cfg qp s t →
    (loop lin sq cfg qp n it s = none ∧ loop lin sq cfg qp n it t = none) ∨
    (∃ it' s' t', loop lin sq cfg qp n it s = some (it', s') ∧ loop lin sq cfg qp n it t = some (it', t') ∧
      Rel both cfg qp s' t') := by
  induction n with
  | zero => intro it s t h; exact Or.inr ⟨it, s, t, rfl, rfl, h⟩
  | succ n ih =>
    intro it s t h
    simp only [loop]
    rcases rel_body (sq := sq) (it := it) hl h with ⟨h1, h2⟩ | ⟨s', t', h1, h2, h3⟩ | ⟨s', t', h1, h2, h3⟩
    · rw [h1, h2]; exact Or.inl ⟨rfl, rfl⟩
    · rw [h1, h2]; exact Or.inr ⟨it, s', t', rfl, rfl, h3⟩
    · rw [h1, h2]; exact ih (it + 1) h3

/-- C63. Two solver objects with any histories, called with the same data, settings and guess, return the same primal
and dual vectors, auxiliary vector, step size, status and iteration count (or both calls are undefined). -/
theorem solve_history_independent (hl : ReadsTriangle both lin) (old1 old2 : State K N M) :
    (solve both lin sq cfg qp xg yg old1 = none ∧ solve both lin sq cfg qp xg yg old2 = none) ∨
    (∃ s1 s2, solve both lin sq cfg qp xg yg old1 = some s1 ∧ solve both lin sq cfg qp xg yg old2 = some s2 ∧
      s1.x = s2.x ∧ s1.y = s2.y ∧ s1.z = s2.z ∧ s1.rho = s2.rho ∧ s1.info.status = s2.info.status ∧
      s1.info.iter = s2.info.iter) := by
  have h0 : Rel both cfg qp (setup both cfg qp xg yg old1) (setup both cfg qp xg yg old2) :=
    ⟨rfl, rfl, rfl, rfl, rfl, ⟨_, stepInv_setup⟩, ⟨_, stepInv_setup⟩⟩
  unfold solve
  rcases rel_loop (sq := sq) hl cfg.maxIter.toNat 1 h0 with ⟨h1, h2⟩ | ⟨it', s', t', h1, h2, h3⟩
  · rw [h1, h2]; exact Or.inl ⟨rfl, rfl⟩
  · rw [h1, h2]
    right
    refine ⟨_, _, rfl, rfl, ?_⟩
    by_cases hgt : it' > cfg.maxIter
    · simp only [hgt, if_true]
      exact ⟨h3.x, h3.y, h3.z, h3.rho, trivial, trivial⟩
    · simp only [hgt, if_false]
      exact ⟨h3.x, h3.y, h3.z, h3.rho, h3.status, trivial⟩

/-- C63 on two consecutive calls: repeating a call on the object it has just been made on gives the same answer. -/
theorem solve_twice (hl : ReadsTriangle both lin) {old s1 s2 : State K N M}
    (h1 : solve both lin sq cfg qp xg yg old = some s1) (h2 : solve both lin sq cfg qp xg yg s1 = some s2) :
    s2.x = s1.x ∧ s2.y = s1.y ∧ s2.info.status = s1.info.status ∧ s2.info.iter = s1.info.iter := by
  rcases solve_history_independent (sq := sq) (cfg := cfg) (qp := qp) (xg := xg) (yg := yg) hl old s1 with
    ⟨h, _⟩ | ⟨a, b, ha, hb, e1, e2, _, _, e3, e4⟩
  · rw [h] at h1; cases h1
  · rw [h1] at ha; rw [h2] at hb; cases ha; cases hb
    exact ⟨e1.symm, e2.symm, e3.symm, e4.symm⟩

/-- The inverse of the triangle that is read is a solver that meets the assumption. -/
example (both : Bool) : ReadsTriangle (K := K) (N := N) (M := M) both (fun A b => (effective both A)⁻¹ *ᵥ b) := by
  intro A B h; funext b; simp only [h]

/-- The example run repeated on the used object: defined, and SOLVED again. -/
example : (((solveCold false exampleLin id exampleCfg exampleQP
    (fresh exampleCfg (fun _ => 0) (fun _ => 0) 0)).bind (solveCold false exampleLin id exampleCfg exampleQP)).map
      fun st => (st.info.status, st.info.iter)) = some (.SOLVED, 4) := by
  decide +kernel

end PolyMPC.Admm
