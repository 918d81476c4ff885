import Verif.Props.MpcSqp
import Verif.Props.SqpQuadratic
import Verif.Props.OcpSource
import Verif.Props.Nlp
import Verif.Lemmas.OcpSparseJac

/-!
# Linear-quadratic model predictive control (C165)

A problem with linear dynamics, linear path constraints and a strictly convex quadratic cost is a quadratic program for the solver, whatever the number of segments and
the polynomial order. The default solver therefore ends after at most two iterations with the optimal trajectory.
-/

set_option linter.unusedSectionVars false
set_option linter.unusedVariables false

namespace PolyMPC.MpcSqp
open Ocp Mpc Spec QuasiNewton
open Matrix hiding ext
open AD hiding Dual

/-! ### Affine and quadratic functions -/

section Quad
variable {n m : ℕ}

/-- `φ` is affine. -/
def IsAffine (φ : (Fin n → ℝ) → ℝ) : Prop := ∃ (a : Fin n → ℝ) (b : ℝ), ∀ z, φ z = a ⬝ᵥ z + b

/-- `φ` is quadratic. -/
def IsQuad (φ : (Fin n → ℝ) → ℝ) : Prop :=
  ∃ (Q : Matrix (Fin n) (Fin n) ℝ) (q : Fin n → ℝ) (c : ℝ), Qᵀ = Q ∧ ∀ z, φ z = 1 / 2 * (z ⬝ᵥ Q *ᵥ z) + q ⬝ᵥ z + c

theorem IsAffine.sub {φ ψ : (Fin n → ℝ) → ℝ} (h : IsAffine φ) (h' : IsAffine ψ) : IsAffine fun z => φ z - ψ z := by
  obtain ⟨a, b, h⟩ := h
  obtain ⟨a', b', h'⟩ := h'
  exact ⟨a - a', b - b', fun z => by beta_reduce; rw [h, h', sub_dotProduct]; ring⟩

theorem IsAffine.add {φ ψ : (Fin n → ℝ) → ℝ} (h : IsAffine φ) (h' : IsAffine ψ) : IsAffine fun z => φ z + ψ z := by
  obtain ⟨a, b, h⟩ := h
  obtain ⟨a', b', h'⟩ := h'
  exact ⟨a + a', b + b', fun z => by beta_reduce; rw [h, h', add_dotProduct]; ring⟩

theorem IsAffine.smul {φ : (Fin n → ℝ) → ℝ} (t : ℝ) (h : IsAffine φ) : IsAffine fun z => t * φ z := by
  obtain ⟨a, b, h⟩ := h
  exact ⟨t • a, t * b, fun z => by beta_reduce; rw [h, smul_dotProduct, smul_eq_mul]; ring⟩

theorem isAffine_const (t : ℝ) : IsAffine fun _ : Fin n → ℝ => t := ⟨0, t, fun z => by beta_reduce; rw [zero_dotProduct, zero_add]⟩

theorem IsAffine.sum {ι : Type*} (s : Finset ι) {F : ι → (Fin n → ℝ) → ℝ} (h : ∀ i ∈ s, IsAffine (F i)) : IsAffine fun z => ∑ i ∈ s, F i z := by
  classical
  induction s using Finset.induction_on with
  | empty => exact isAffine_const 0
  | insert a s ha ih =>
    simp only [Finset.sum_insert ha]
    exact (h a (Finset.mem_insert_self a s)).add (ih fun i hi => h i (Finset.mem_insert_of_mem hi))

theorem isAffine_coord (i : Fin n) : IsAffine fun z : Fin n → ℝ => z i := ⟨Pi.single i 1, 0, fun z => by beta_reduce; rw [single_dotProduct]; ring⟩

theorem IsAffine.comp {φ : (Fin m → ℝ) → ℝ} (h : IsAffine φ) (P : Matrix (Fin m) (Fin n) ℝ) : IsAffine fun z => φ (P *ᵥ z) := by
  obtain ⟨a, b, h⟩ := h
  exact ⟨Pᵀ *ᵥ a, b, fun z => by beta_reduce; rw [h, dotProduct_mulVec, mulVec_transpose]⟩

theorem IsQuad.add {φ ψ : (Fin n → ℝ) → ℝ} (h : IsQuad φ) (h' : IsQuad ψ) : IsQuad fun z => φ z + ψ z := by
  obtain ⟨Q, q, c, s, h⟩ := h
  obtain ⟨Q', q', c', s', h'⟩ := h'
  exact ⟨Q + Q', q + q', c + c', by rw [transpose_add, s, s'], fun z => by beta_reduce; rw [h, h', add_dotProduct, add_mulVec, dotProduct_add]; ring⟩

theorem IsQuad.smul {φ : (Fin n → ℝ) → ℝ} (t : ℝ) (h : IsQuad φ) : IsQuad fun z => t * φ z := by
  obtain ⟨Q, q, c, s, h⟩ := h
  exact ⟨t • Q, t • q, t * c, by rw [transpose_smul, s], fun z => by beta_reduce; rw [h, smul_dotProduct, smul_mulVec, dotProduct_smul, smul_eq_mul, smul_eq_mul]; ring⟩

theorem isQuad_zero : IsQuad fun _ : Fin n → ℝ => 0 :=
  ⟨0, 0, 0, transpose_zero, fun z => by beta_reduce; rw [zero_mulVec, dotProduct_zero, zero_dotProduct]; ring⟩

theorem IsQuad.sum {ι : Type*} (s : Finset ι) {F : ι → (Fin n → ℝ) → ℝ} (h : ∀ i ∈ s, IsQuad (F i)) : IsQuad fun z => ∑ i ∈ s, F i z := by
  classical
  induction s using Finset.induction_on with
  | empty => exact isQuad_zero
  | insert a s ha ih =>
    simp only [Finset.sum_insert ha]
    exact (h a (Finset.mem_insert_self a s)).add (ih fun i hi => h i (Finset.mem_insert_of_mem hi))

theorem IsQuad.comp {φ : (Fin m → ℝ) → ℝ} (h : IsQuad φ) (P : Matrix (Fin m) (Fin n) ℝ) : IsQuad fun z => φ (P *ᵥ z) := by
  obtain ⟨Q, q, c, s, h⟩ := h
  refine ⟨Pᵀ * Q * P, Pᵀ *ᵥ q, c, ?_, fun z => ?_⟩
  · rw [transpose_mul, transpose_mul, s, transpose_transpose, Matrix.mul_assoc]
  · beta_reduce
    rw [h, dotProduct_mulVec q, mulVec_transpose, ← mulVec_mulVec, ← mulVec_mulVec, dotProduct_mulVec z Pᵀ, vecMul_transpose]

/-- The second difference of a quadratic function. -/
theorem second_difference {φ : (Fin n → ℝ) → ℝ} {Q : Matrix (Fin n) (Fin n) ℝ} {q : Fin n → ℝ} {c : ℝ}
    (h : ∀ z, φ z = 1 / 2 * (z ⬝ᵥ Q *ᵥ z) + q ⬝ᵥ z + c) (z : Fin n → ℝ) : φ z + φ (-z) - 2 * φ 0 = z ⬝ᵥ Q *ᵥ z := by
  rw [h, h, h, mulVec_neg, neg_dotProduct_neg, dotProduct_neg, mulVec_zero, dotProduct_zero, dotProduct_zero]
  ring

theorem isGradient_linear (a : Fin n → ℝ) (b : ℝ) (x : Fin n → ℝ) : IsGradient (fun z => a ⬝ᵥ z + b) a x := by
  have h1 : IsGradient (fun z : Fin n → ℝ => ∑ i, a i * z i) (fun c => ∑ i, a i * (if c = i then 1 else 0)) x :=
    IsGradient.sum' _ fun i _ => IsGradient.smul' _ (Nlp.isGradient_coord i x)
  have h2 := IsGradient.add' h1 (isGradient_const b x)
  have e : (fun c => ∑ i, a i * (if c = i then (1 : ℝ) else 0) + 0) = a := by
    funext c
    simp
  rw [e] at h2
  exact h2

theorem IsGradient.mul' {f g : (Fin n → ℝ) → ℝ} {v w x : Fin n → ℝ} (hf : IsGradient f v x) (hg : IsGradient g w x) :
    IsGradient (fun z => f z * g z) (fun c => w c * f x + v c * g x) x := by
  unfold IsGradient
  rw [gradMap_add, gradMap_mul, gradMap_mul]
  exact HasFDerivAt.mul hf hg

theorem isGradient_quad {Q : Matrix (Fin n) (Fin n) ℝ} (hQ : Qᵀ = Q) (q : Fin n → ℝ) (c : ℝ) (x : Fin n → ℝ) :
    IsGradient (fun z => 1 / 2 * (z ⬝ᵥ Q *ᵥ z) + q ⬝ᵥ z + c) (Q *ᵥ x + q) x := by
  have h1 : IsGradient (fun z : Fin n → ℝ => ∑ i, z i * (Q i ⬝ᵥ z + 0)) (fun c => ∑ i, (Q i c * x i + (if c = i then 1 else 0) * (Q i ⬝ᵥ x + 0))) x :=
    IsGradient.sum' _ fun i _ => IsGradient.mul' (Nlp.isGradient_coord i x) (isGradient_linear (Q i) 0 x)
  have h2 := IsGradient.add' (IsGradient.smul' (1 / 2) h1) (isGradient_linear q c x)
  have e1 : (fun z : Fin n → ℝ => 1 / 2 * ∑ i, z i * (Q i ⬝ᵥ z + 0) + (q ⬝ᵥ z + c)) = fun z => 1 / 2 * (z ⬝ᵥ Q *ᵥ z) + q ⬝ᵥ z + c := by
    funext z
    simp only [add_zero, ← add_assoc]
    rfl
  have e2 : (fun k => 1 / 2 * ∑ i, (Q i k * x i + (if k = i then 1 else 0) * (Q i ⬝ᵥ x + 0)) + q k) = Q *ᵥ x + q := by
    funext k
    have s1 : ∑ i, Q i k * x i = (Q *ᵥ x) k := Finset.sum_congr rfl fun i _ => by rw [← congrFun (congrFun hQ i) k]; rfl
    have s2 : ∑ i, (if k = i then (1 : ℝ) else 0) * (Q i ⬝ᵥ x + 0) = (Q *ᵥ x) k := by
      rw [Finset.sum_eq_single_of_mem k (Finset.mem_univ k)]
      · rw [if_pos rfl, one_mul, add_zero]; rfl
      · intro i _ hi
        rw [if_neg (Ne.symm hi), zero_mul]
    rw [Finset.sum_add_distrib, s1, s2, Pi.add_apply]
    ring
  rw [e1, e2] at h2
  exact h2

theorem isHessian_quad {Q : Matrix (Fin n) (Fin n) ℝ} (hQ : Qᵀ = Q) (q : Fin n → ℝ) (c : ℝ) (x : Fin n → ℝ) :
    IsHessian (fun z => 1 / 2 * (z ⬝ᵥ Q *ᵥ z) + q ⬝ᵥ z + c) (fun r i => Q r i) x := by
  refine ⟨fun z => Q *ᵥ z + q, Filter.Eventually.of_forall fun z => isGradient_quad hQ q c z, fun i => ?_⟩
  have := isGradient_linear (Q i) (q i) x
  have e : (fun r => Q r i) = Q i := by funext r; exact congrFun (congrFun hQ i) r
  rw [e]
  exact this

end Quad

/-! ### The node vectors are linear in the variables -/

variable {d : Dims}

/-- The matrix that picks state, control and parameters of node `k`. -/
def pick (d : Dims) (k : ℕ) : Matrix (Fin d.M) (Fin d.VAR) ℝ := Matrix.of fun i c => if nodeIdx d k i = c then 1 else 0

theorem node_pick {k : ℕ} (hk : k < d.NN) (z : Fin d.VAR → ℝ) : node d (ext z) k = pick d k *ᵥ z := by
  funext i
  rw [node_eq]
  show _ = ∑ c : Fin d.VAR, (if nodeIdx d k i = (c : ℕ) then (1 : ℝ) else 0) * z c
  have h := nodeIdx_lt d hk i.2
  rw [Finset.sum_eq_single_of_mem ⟨_, h⟩ (Finset.mem_univ _)]
  · rw [if_pos rfl, one_mul]; unfold ext; rw [dif_pos h]
  · intro c _ hc
    rw [if_neg fun e => hc (Fin.ext e.symm), zero_mul]

/-- Every variable belongs to a node. -/
theorem node_ne_zero {z : Fin d.VAR → ℝ} (hz : z ≠ 0) : ∃ k < d.NN, node d (ext z) k ≠ 0 := by
  obtain ⟨c, hc⟩ := Function.ne_iff.1 hz
  have key : ∀ k < d.NN, ∀ i < d.M, nodeIdx d k i = c → ∃ k < d.NN, node d (ext z) k ≠ 0 := by
    intro k hk i hi e
    refine ⟨k, hk, fun h => hc ?_⟩
    have := congrFun h ⟨i, hi⟩
    rw [node_eq, e] at this
    unfold ext at this
    rw [dif_pos c.2] at this
    exact this
  have hcl := c.2
  unfold Dims.VAR at hcl
  have hM : d.M = d.NX + d.NU + d.NP := rfl
  rcases Nat.lt_or_ge c.val d.VARX with h1 | h1
  · obtain ⟨a, b, e⟩ := div_mod_flat (n := d.NX) (m := d.NN) h1
    exact key (c / d.NX) a (c % d.NX) (by omega) (by rw [nodeIdx_x d _ b, e])
  · rcases Nat.lt_or_ge c.val (d.VARX + d.VARU) with h2 | h2
    · obtain ⟨a, b, e⟩ := div_mod_flat (n := d.NU) (m := d.NN) (q := c - d.VARX) (by unfold Dims.VARU at h2; omega)
      exact key _ a (d.NX + (c - d.VARX) % d.NU) (by omega) (by rw [nodeIdx_u d _ b]; omega)
    · refine key 0 (zero_lt_NN d) (d.NX + d.NU + (c - (d.VARX + d.VARU))) (by omega) (by rw [nodeIdx_p]; omega)

/-! ### Exact callbacks -/

/-- All callbacks write their results, and their plain, first- and second-order instantiations are exact everywhere. -/
structure Exact (cb : Cbs d ℝ) (time : ℕ → ℝ) (f g : ℕ → ℕ → (Fin d.M → ℝ) → ℝ) (L : ℕ → (Fin d.M → ℝ) → ℝ) (m : (Fin d.M → ℝ) → ℝ) : Prop where
  dyn : ∀ k < d.NN, ∀ z, DynExact cb (time k) (f k) z
  ineq : ∀ k < d.NN, ∀ z, IneqExact cb (time k) (g k) z
  lag : ∀ k < d.NN, ∀ z, LagExact cb (time k) (L k) z
  mayer : ∀ z, MayerExact cb (time 0) m z
  dyn2 : ∀ k < d.NN, ∀ z, DynExact2 cb (time k) (f k) z
  ineq2 : ∀ k < d.NN, ∀ z, IneqExact2 cb (time k) (g k) z
  lag2 : ∀ k < d.NN, ∀ z, LagExact2 cb (time k) (L k) z
  mayer2 : ∀ z, MayerExact2 cb (time 0) m z

variable {A : Approx ℝ} {cb : Cbs d ℝ} {o o' : Obj d ℝ} {f g : ℕ → ℕ → (Fin d.M → ℝ) → ℝ} {L : ℕ → (Fin d.M → ℝ) → ℝ} {m : (Fin d.M → ℝ) → ℝ} {sc : Scratch d}

theorem problem_parts (hS : 1 ≤ d.S) (hN : 1 ≤ d.N) (hsk : SkewEnds d A) (h : Exact cb o.time f g L m) (x : Fin d.VAR → ℝ) :
    IsGradient (problem A cb o sc).cost ((problem A cb o sc).costGrad x) x ∧
    (∀ lam, IsGradient (fun z => lagrangian d A cb o sc.junk (ext z) (ofDual lam) sc.c0) ((problem A cb o sc).lagGrad x lam) x) ∧
    ∀ i : Fin (d.NEQ + d.NINEQ), (problem A cb o sc).constr x i = constraints d A cb o sc.junk (ext x) sc.c0 i ∧
      IsGradient (fun z => constraints d A cb o sc.junk (ext z) sc.c0 i) ((problem A cb o sc).jac x i) x := by
  have key := fun lam => lagrangian_gradient d A cb o sc.junk sc.c0 sc.J0 f g L m lam x hS hN hsk (fun k hk => h.dyn k hk _) (fun k hk => h.ineq k hk _)
    (fun k hk => h.lag k hk _) (h.mayer _)
  exact ⟨(key fun _ => 0).2.1, fun lam => (key (ofDual lam)).1, fun i => (key fun _ => 0).2.2 i i.2⟩

theorem problem_hessian (hS : 1 ≤ d.S) (hN : 1 ≤ d.N) (hsk : SkewEnds d A) (hU : d.NU ≤ d.NX) (hVX : d.NX ≤ d.VARU + d.NP ∨ d.NU = 0) (h : Exact cb o.time f g L m)
    (x : Fin d.VAR → ℝ) (lam : Sqp.Dual ℝ d.VAR d.NEQ d.NINEQ) :
    ∃ J q H o', lagrangianGradientHessian d A cb o sc.junk (ext x) (ofDual lam) sc.c0 sc.J0 sc.xd0 sc.g0 1 = some (J, q, H, o') ∧
      J = (problem A cb o sc).cost x ∧ (∀ c : Fin d.VAR, q c = (problem A cb o sc).lagGrad x lam c) ∧
      IsHessian (fun z => lagrangian d A cb o sc.junk (ext z) (ofDual lam) sc.c0) (fun r c => (problem A cb o sc).lagHess x lam r c
        - mayerErr d (hesOf (cb.mayerAD2 (node d (ext x) 0) (o.time 0) (zero2 d.M))) r c) x := by
  obtain ⟨J, q, H, o', e, hJ, hq, hH⟩ := lagrangian_hessian d A cb o sc.junk sc.c0 sc.J0 f g L m (ofDual lam) x hS hN hsk sc.xd0 sc.g0 hU hVX
    (fun k hk => h.dyn k hk _) (fun k hk => h.ineq k hk _) (fun k hk => h.lag k hk _) (h.mayer _)
    (fun k hk => h.dyn2 k hk _) (fun k hk => h.ineq2 k hk _) (fun k hk => h.lag2 k hk _) (h.mayer2 _)
  refine ⟨J, q, H, o', e, hJ, fun c => ?_, ?_⟩
  · exact congrFun (gradient_unique hq ((problem_parts hS hN hsk h x).2.1 lam)) c
  · have : (fun r c : Fin d.VAR => (problem A cb o sc).lagHess x lam r c) = fun r c : Fin d.VAR => H r c := by
      funext r c
      show ((lagrangianGradientHessian d A cb o sc.junk (ext x) (ofDual lam) sc.c0 sc.J0 sc.xd0 sc.g0 1).map fun t => t.2.2.1 r c).getD 0 = _
      rw [e]; rfl
    have e2 : (fun r c : Fin d.VAR => (problem A cb o sc).lagHess x lam r c
        - mayerErr d (hesOf (cb.mayerAD2 (node d (ext x) 0) (o.time 0) (zero2 d.M))) r c) = fun r c : Fin d.VAR => H r c
        - mayerErr d (hesOf (cb.mayerAD2 (node d (ext x) 0) (o.time 0) (zero2 d.M))) r c := by
      funext r c
      rw [congrFun (congrFun this r) c]
    rw [e2]
    exact hH

/-- The values that the transcription keeps between calls do not matter: two objects with the same horizon and node times give the solver the same problem. -/
theorem problem_any (hS : 1 ≤ d.S) (hN : 1 ≤ d.N) (hsk : SkewEnds d A) (hU : d.NU ≤ d.NX) (hVX : d.NX ≤ d.VARU + d.NP ∨ d.NU = 0) (h : Exact cb o.time f g L m)
    (h1 : o.tStart = o'.tStart) (h2 : o.tStop = o'.tStop) (h3 : o.time = o'.time) : problem A cb o sc = problem A cb o' sc := by
  have hc : ∀ var, cost d A cb o var = cost d A cb o' var := by intro var; unfold cost tScale; rw [h1, h2, h3]
  have he : ∀ var, equalities d A cb o sc.junk var sc.c0 = equalities d A cb o' sc.junk var sc.c0 := fun var => equalities_congr A cb h1 h2 h3 _ _ _
  have hi : ∀ var c0, inequalities d cb o var c0 = inequalities d cb o' var c0 := by intro var c0; unfold inequalities; rw [h3]
  have hk : ∀ var, constraints d A cb o sc.junk var sc.c0 = constraints d A cb o' sc.junk var sc.c0 := by
    intro var; unfold constraints; dsimp only; rw [he, hi]
  have hl : ∀ var lam, lagrangian d A cb o sc.junk var lam sc.c0 = lagrangian d A cb o' sc.junk var lam sc.c0 := by
    intro var lam; unfold lagrangian; rw [hc, hk]
  have h' : Exact cb o'.time f g L m := h3 ▸ h
  have p := fun x => problem_parts (sc := sc) hS hN hsk h x
  have p' := fun x => problem_parts (sc := sc) hS hN hsk h' x
  have ec : (problem A cb o sc).cost = (problem A cb o' sc).cost := funext fun x => hc _
  have ee : (problem A cb o sc).eq = (problem A cb o' sc).eq := by
    funext x i; show equalities d A cb o sc.junk (ext x) sc.c0 i = equalities d A cb o' sc.junk (ext x) sc.c0 i; rw [he]
  have ei : (problem A cb o sc).ineq = (problem A cb o' sc).ineq := by
    funext x i; show inequalities d cb o (ext x) sc.c0 i = inequalities d cb o' (ext x) sc.c0 i; rw [hi]
  have eg : (problem A cb o sc).costGrad = (problem A cb o' sc).costGrad := by
    funext x
    have := (p x).1
    rw [ec] at this
    exact gradient_unique this (p' x).1
  have ek : (problem A cb o sc).constr = (problem A cb o' sc).constr := by
    funext x i
    rw [((p x).2.2 i).1, ((p' x).2.2 i).1, hk]
  have ej : (problem A cb o sc).jac = (problem A cb o' sc).jac := by
    funext x i
    have := ((p x).2.2 i).2
    simp only [hk] at this
    exact gradient_unique this ((p' x).2.2 i).2
  have elg : (problem A cb o sc).lagGrad = (problem A cb o' sc).lagGrad := by
    funext x lam
    have := (p x).2.1 lam
    simp only [hl] at this
    exact gradient_unique this ((p' x).2.1 lam)
  have elh : (problem A cb o sc).lagHess = (problem A cb o' sc).lagHess := by
    funext x lam
    obtain ⟨-, -, -, -, -, -, -, q1⟩ := problem_hessian (sc := sc) hS hN hsk hU hVX h x lam
    obtain ⟨-, -, -, -, -, -, -, q2⟩ := problem_hessian (sc := sc) hS hN hsk hU hVX h' x lam
    simp only [hl] at q1
    rw [h3] at q1
    have := hessian_unique q1 q2
    funext r c
    exact sub_left_injective (congrFun (congrFun this r) c)
  revert ec ee ei eg ek ej elg elh
  generalize problem A cb o sc = P
  generalize problem A cb o' sc = P'
  cases P; cases P'
  rintro rfl rfl rfl rfl rfl rfl rfl rfl
  rfl

/-! ### Linear-quadratic problems -/

/-- Linear dynamics and path constraints, strictly convex quadratic running cost and convex quadratic terminal cost; all may depend on time. -/
structure LinQuad (d : Dims) (f g : ℕ → ℕ → (Fin d.M → ℝ) → ℝ) (L : ℕ → (Fin d.M → ℝ) → ℝ) (m : (Fin d.M → ℝ) → ℝ) : Prop where
  dyn : ∀ k < d.NN, ∀ i < d.NX, IsAffine (f k i)
  ineq : ∀ k < d.NN, ∀ i < d.NG, IsAffine (g k i)
  lag : ∀ k < d.NN, IsQuad (L k)
  lag_pos : ∀ k < d.NN, ∀ z ≠ 0, 0 < L k z + L k (-z) - 2 * L k 0
  mayer : IsQuad m
  mayer_nonneg : ∀ z, 0 ≤ m z + m (-z) - 2 * m 0

theorem constraints_affine (hS : 1 ≤ d.S) (hN : 1 ≤ d.N) (h : Exact cb o.time f g L m) (hq : LinQuad d f g L m) {r : ℕ} (hr : r < d.NEQ + d.NINEQ) :
    IsAffine fun z : Fin d.VAR → ℝ => constraints d A cb o sc.junk (ext z) sc.c0 r := by
  rcases Nat.lt_or_ge r d.NEQ with h1 | h1
  · obtain ⟨k, i, hk, hi, rfl⟩ := blk_split h1
    obtain ⟨s, j, hs, hj, hjs, rfl⟩ := node_split d hS hN hk
    have e : ∀ z : Fin d.VAR → ℝ, constraints d A cb o sc.junk (ext z) sc.c0 ((s * d.N + j) * d.NX + i)
        = ∑ l ∈ Finset.range (d.N + 1), A.D j l * ext z ((s * d.N + l) * d.NX + i) - tScale d o * f (s * d.N + j) i (pick d (s * d.N + j) *ᵥ z) := by
      intro z
      rw [constraints_eq_part d A cb o sc.junk (ext z) sc.c0 h1,
        equalities_at d A cb o sc.junk (ext z) sc.c0 (fun k i => f k i (node d (ext z) k)) (fun k hk old i hi => (h.dyn k hk 0).plain _ old i hi) hk hi,
        diffX_closed d A (ext z) sc.junk hs hj hjs hi, node_pick hk]
    simp only [e]
    refine IsAffine.sub (IsAffine.sum _ fun l hl => IsAffine.smul _ ?_) (IsAffine.smul _ ((hq.dyn _ hk i hi).comp _))
    have hlt : (s * d.N + l) * d.NX + i < d.VAR := by
      have := xIdx_lt d (node_lt d hs (show l ≤ d.N by have := Finset.mem_range.1 hl; omega)) hi
      unfold Dims.VAR; omega
    have e3 : (fun z : Fin d.VAR → ℝ => ext z ((s * d.N + l) * d.NX + i)) = fun z => z ⟨_, hlt⟩ := by
      funext z; unfold ext; rw [dif_pos hlt]
    rw [e3]
    exact isAffine_coord _
  · obtain ⟨q, rfl⟩ : ∃ q, r = d.NEQ + q := ⟨r - d.NEQ, by omega⟩
    have hql : q < d.NINEQ := by omega
    obtain ⟨k, i, hk, hi, rfl⟩ := blk_split hql
    have e : ∀ z : Fin d.VAR → ℝ, constraints d A cb o sc.junk (ext z) sc.c0 (d.NEQ + (k * d.NG + i)) = g k i (pick d k *ᵥ z) := by
      intro z
      obtain ⟨c0', e1⟩ := constraints_ineq_part d A cb o sc.junk (ext z) sc.c0 hql
      rw [e1, inequalities_at d cb o (ext z) c0' (fun k i => g k i (node d (ext z) k)) (fun k hk old i hi => (h.ineq k hk 0).plain _ old i hi) hk hi, node_pick hk]
    simp only [e]
    exact (hq.ineq k hk i hi).comp _

theorem cost_closed_form (h : Exact cb o.time f g L m) (z : Fin d.VAR → ℝ) : (problem A cb o sc).cost z = ∑ s ∈ Finset.range d.S, ∑ j ∈ Finset.range (d.N + 1),
      tScale d o * A.w j * L (s * d.N + j) (node d (ext z) (s * d.N + j)) + m (node d (ext z) 0) :=
  congrFun (cost_fun d A cb o L m (fun k hk z old => (h.lag k hk z).plain z old) fun z => (h.mayer z).plain z) z

theorem ineq_c0 (h : Exact cb o.time f g L m) (c0 c0' var : ℕ → ℝ) {r : ℕ} (hr : r < d.NINEQ) : inequalities d cb o var c0 r = inequalities d cb o var c0' r := by
  obtain ⟨k, i, hk, hi, rfl⟩ := blk_split hr
  rw [inequalities_at d cb o var c0 (fun k i => g k i (node d var k)) (fun k hk old i hi => (h.ineq k hk 0).plain _ old i hi) hk hi,
    inequalities_at d cb o var c0' (fun k i => g k i (node d var k)) (fun k hk old i hi => (h.ineq k hk 0).plain _ old i hi) hk hi]

/-- **C165.** A linear-quadratic problem without parameters is, for the solver, a strictly convex quadratic program. -/
theorem linQuad_isQP (hS : 1 ≤ d.S) (hN : 1 ≤ d.N) (hsk : SkewEnds d A) (hw : ∀ j ≤ d.N, 0 < A.w j) (hP : d.NP = 0) (hU : d.NU ≤ d.NX)
    (hVX : d.NX ≤ d.VARU ∨ d.NU = 0) (ht : o.tStart < o.tStop) (h : Exact cb o.time f g L m) (hq : LinQuad d f g L m) :
    ∃ Q q c B b, SPD Q ∧ Sqp.IsQP (problem A cb o sc) Q q c B b := by
  have hSp : (0 : ℝ) < d.S := by exact_mod_cast hS
  have hts : 0 < tScale d o := by
    unfold tScale
    have := sub_pos.2 ht
    positivity
  -- the cost
  have hcq : IsQuad (problem A cb o sc).cost := by
    have e : (problem A cb o sc).cost = fun z => ∑ s ∈ Finset.range d.S, ∑ j ∈ Finset.range (d.N + 1),
        tScale d o * A.w j * L (s * d.N + j) (pick d (s * d.N + j) *ᵥ z) + m (pick d 0 *ᵥ z) := by
      funext z
      rw [cost_closed_form h, node_pick (zero_lt_NN d)]
      congr 1
      refine Finset.sum_congr rfl fun s hs => Finset.sum_congr rfl fun j hj => ?_
      rw [node_pick (node_lt d (Finset.mem_range.1 hs) (by have := Finset.mem_range.1 hj; omega))]
    rw [e]
    refine IsQuad.add (IsQuad.sum _ fun s hs => IsQuad.sum _ fun j hj => IsQuad.smul _ ((hq.lag _ ?_).comp _)) (hq.mayer.comp _)
    exact node_lt d (Finset.mem_range.1 hs) (by have := Finset.mem_range.1 hj; omega)
  obtain ⟨Q, q, c, hQ, hcost⟩ := hcq
  have hSPD : SPD Q := by
    refine ⟨hQ, fun v hv => ?_⟩
    rw [← second_difference hcost v, cost_closed_form h, cost_closed_form h, cost_closed_form h]
    have en : ∀ k < d.NN, node d (ext (-v)) k = -node d (ext v) k ∧ node d (ext (0 : Fin d.VAR → ℝ)) k = 0 := fun k hk => by
      rw [node_pick hk, node_pick hk, node_pick hk, mulVec_neg, mulVec_zero]; exact ⟨rfl, rfl⟩
    have hterm : ∀ s ∈ Finset.range d.S, ∀ j ∈ Finset.range (d.N + 1), 0 < tScale d o * A.w j ∧ s * d.N + j < d.NN := fun s hs j hj => by
      have hj' : j ≤ d.N := by have := Finset.mem_range.1 hj; omega
      exact ⟨mul_pos hts (hw j hj'), node_lt d (Finset.mem_range.1 hs) hj'⟩
    have hnn : ∀ k < d.NN, 0 ≤ L k (node d (ext v) k) + L k (node d (ext (-v)) k) - 2 * L k (node d (ext (0 : Fin d.VAR → ℝ)) k) := fun k hk => by
      rw [(en k hk).1, (en k hk).2]
      by_cases h0 : node d (ext v) k = 0
      · rw [h0, neg_zero]; apply le_of_eq; ring
      · exact (hq.lag_pos k hk _ h0).le
    have hm0 : 0 ≤ m (node d (ext v) 0) + m (node d (ext (-v)) 0) - 2 * m (node d (ext (0 : Fin d.VAR → ℝ)) 0) := by
      rw [(en 0 (zero_lt_NN d)).1, (en 0 (zero_lt_NN d)).2]; exact hq.mayer_nonneg _
    have hsum : 0 < ∑ s ∈ Finset.range d.S, ∑ j ∈ Finset.range (d.N + 1), tScale d o * A.w j *
        (L (s * d.N + j) (node d (ext v) (s * d.N + j)) + L (s * d.N + j) (node d (ext (-v)) (s * d.N + j)) - 2 * L (s * d.N + j) (node d (ext (0 : Fin d.VAR → ℝ)) (s * d.N + j))) := by
      obtain ⟨k, hk, hne⟩ := node_ne_zero hv
      obtain ⟨s, j, hs, hj, -, rfl⟩ := node_split d hS hN hk
      have hs' := Finset.mem_range.2 hs
      have hj' : j ∈ Finset.range (d.N + 1) := Finset.mem_range.2 (by omega)
      refine Finset.sum_pos' (fun s hs => Finset.sum_nonneg fun j hj => mul_nonneg (hterm s hs j hj).1.le (hnn _ (hterm s hs j hj).2)) ⟨s, hs', ?_⟩
      refine Finset.sum_pos' (fun j hj => mul_nonneg (hterm s hs' j hj).1.le (hnn _ (hterm s hs' j hj).2)) ⟨j, hj', mul_pos (hterm s hs' j hj').1 ?_⟩
      rw [(en _ hk).1, (en _ hk).2]
      exact hq.lag_pos _ hk _ hne
    have e : ∑ s ∈ Finset.range d.S, ∑ j ∈ Finset.range (d.N + 1), tScale d o * A.w j *
        (L (s * d.N + j) (node d (ext v) (s * d.N + j)) + L (s * d.N + j) (node d (ext (-v)) (s * d.N + j)) - 2 * L (s * d.N + j) (node d (ext (0 : Fin d.VAR → ℝ)) (s * d.N + j)))
        = ∑ s ∈ Finset.range d.S, ∑ j ∈ Finset.range (d.N + 1), tScale d o * A.w j * L (s * d.N + j) (node d (ext v) (s * d.N + j))
        + ∑ s ∈ Finset.range d.S, ∑ j ∈ Finset.range (d.N + 1), tScale d o * A.w j * L (s * d.N + j) (node d (ext (-v)) (s * d.N + j))
        - 2 * ∑ s ∈ Finset.range d.S, ∑ j ∈ Finset.range (d.N + 1), tScale d o * A.w j * L (s * d.N + j) (node d (ext (0 : Fin d.VAR → ℝ)) (s * d.N + j)) := by
      rw [Finset.mul_sum, ← Finset.sum_add_distrib, ← Finset.sum_sub_distrib]
      refine Finset.sum_congr rfl fun s _ => ?_
      rw [Finset.mul_sum, ← Finset.sum_add_distrib, ← Finset.sum_sub_distrib]
      refine Finset.sum_congr rfl fun j _ => ?_
      ring
    rw [e] at hsum
    linarith
  -- the constraints
  have hca : ∀ r : Fin (d.NEQ + d.NINEQ), IsAffine fun z : Fin d.VAR → ℝ => constraints d A cb o sc.junk (ext z) sc.c0 r := fun r => constraints_affine hS hN h hq r.2
  choose a b hab using hca
  let B : Matrix (Fin (d.NEQ + d.NINEQ)) (Fin d.VAR) ℝ := Matrix.of a
  have hc2 : ∀ (x : Fin d.VAR → ℝ) (r : Fin (d.NEQ + d.NINEQ)), constraints d A cb o sc.junk (ext x) sc.c0 r = (B *ᵥ x + b) r := fun x r => hab r x
  have hparts := fun x => problem_parts (sc := sc) hS hN hsk h x
  refine ⟨Q, q, c, B, b, hSPD, hcost, fun x => ?_, fun x i => ?_, fun x i => ?_, fun x => ?_, fun x => ?_, fun x lam => ?_⟩
  · have h1 := (hparts x).1
    rw [show (problem A cb o sc).cost = _ from funext hcost] at h1
    exact gradient_unique h1 (isGradient_quad hQ q c x)
  · rw [← hc2 x (Fin.castAdd _ i)]
    exact (constraints_eq_part d A cb o sc.junk (ext x) sc.c0 i.2).symm
  · rw [← hc2 x (Fin.natAdd _ i)]
    obtain ⟨c0', e1⟩ := constraints_ineq_part d A cb o sc.junk (ext x) sc.c0 i.2
    refine Eq.trans ?_ e1.symm
    exact ineq_c0 h _ _ _ i.2
  · funext r
    rw [((hparts x).2.2 r).1, hc2]
  · funext r
    have h1 := ((hparts x).2.2 r).2
    rw [show (fun z : Fin d.VAR → ℝ => constraints d A cb o sc.junk (ext z) sc.c0 r) = _ from funext (hab r)] at h1
    exact gradient_unique h1 (isGradient_linear (a r) (b r) x)
  · obtain ⟨-, -, -, -, -, -, -, h1⟩ := problem_hessian (sc := sc) hS hN hsk hU (by omega) h x lam
    have h0 : ∀ r c : Fin d.VAR, mayerErr d (hesOf (cb.mayerAD2 (node d (ext x) 0) (o.time 0) (zero2 d.M))) r c = 0 := by
      intro r c
      unfold mayerErr
      rw [if_neg]
      have := r.2
      unfold Dims.VAR at this ⊢; omega
    simp only [h0, sub_zero] at h1
    have hlin : IsAffine fun z : Fin d.VAR → ℝ => ∑ i ∈ Finset.range (d.NEQ + d.NINEQ), constraints d A cb o sc.junk (ext z) sc.c0 i * ofDual lam i
        + ∑ i : Fin d.VAR, z i * ofDual lam (d.NEQ + d.NINEQ + i) := by
      refine IsAffine.add (IsAffine.sum _ fun i hi => ?_) (IsAffine.sum _ fun i _ => ?_)
      · simp only [mul_comm _ (ofDual lam i)]
        exact (constraints_affine hS hN h hq (Finset.mem_range.1 hi)).smul _
      · simp only [mul_comm _ (ofDual lam (d.NEQ + d.NINEQ + i))]
        exact (isAffine_coord i).smul _
    obtain ⟨a', b', hl⟩ := hlin
    have e2 : (fun z : Fin d.VAR → ℝ => lagrangian d A cb o sc.junk (ext z) (ofDual lam) sc.c0) = fun z => 1 / 2 * (z ⬝ᵥ Q *ᵥ z) + (q + a') ⬝ᵥ z + (c + b') := by
      funext z
      rw [lagrangian_value, add_assoc, add_dotProduct]
      have := hl z
      beta_reduce at this
      rw [this]
      have := hcost z
      change cost d A cb o (ext z) = _ at this
      rw [this]
      ring
    rw [e2] at h1
    exact hessian_unique h1 (isHessian_quad hQ _ _ x)

variable {prec : Sqp.Precond ℝ d.VAR (d.NEQ + d.NINEQ)} {qps : Sqp.QPSolver ℝ d.VAR (d.NEQ + d.NINEQ)}

/-- **C165.** Linear-quadratic model predictive control with the Chebyshev scheme, the default solver and an exact QP solver. If the optimality conditions hold at `xs` for exactly one
vector of multipliers `ys`, and the guess is not as close to `xs` as the last hypothesis excludes, the solver reports `SOLVED` after at most two iterations, the wrapper holds
exactly `xs` and `ys`, and no feasible trajectory has a lower cost. -/
theorem linQuad_solved [NeZero d.VAR] (hS : 1 ≤ d.S) (hN : 1 ≤ d.N) (hP : d.NP = 0) (hU : d.NU ≤ d.NX) (hVX : d.NX ≤ d.VARU ∨ d.NU = 0) (w : Wrap d ℝ)
    (ht : w.ocp.tStart < w.ocp.tStop) (h : Exact cb w.ocp.time f g L m) (hq : LinQuad d f g L m)
    {eps : ℝ} (heps : 0 < eps) {cfg : Sqp.Settings ℝ} (he : cfg.eta ≤ 1 / 2) (hmax : 2 ≤ cfg.maxIter) (hp : 0 ≤ cfg.epsPrim) (hd : 0 ≤ cfg.epsDual)
    (hl : Sqp.LawfulPrecond prec) (hpd : ∀ m qp, ∃ r, prec.compute m qp = some r) (hex : Sqp.ExactQP qps)
    {xs : Fin d.VAR → ℝ} {ys : Sqp.Dual ℝ d.VAR d.NEQ d.NINEQ} (hs : Sqp.Stationary (problem (chebApprox d.N) cb w.ocp sc) (bounds w) xs ys)
    (hu : ∀ y, Sqp.Stationary (problem (chebApprox d.N) cb w.ocp sc) (bounds w) xs y → y = ys) (s : Sqp.State ℝ d.VAR d.NEQ d.NINEQ prec qps)
    {δ : Fin d.VAR → ℝ} (hδ : ∀ i, δ i = xs i - w.x i)
    (hgap : cfg.eta * infNorm ys * eps ≤ (1 / 2 - cfg.eta) * ((problem (chebApprox d.N) cb w.ocp sc).cost δ + (problem (chebApprox d.N) cb w.ocp sc).cost (-δ)
      - 2 * (problem (chebApprox d.N) cb w.ocp sc).cost 0)) :
    ∃ r, Sqp.solve (Sqp.defaultEnv eps cfg (problem (chebApprox d.N) cb w.ocp sc) (bounds w)) (start w s) = some r ∧ r.status = .SOLVED ∧ r.iter ≤ 2 ∧
      (∀ i : Fin d.VAR, (finish w r).x i = xs i) ∧ r.lam = ys ∧
      ∀ z, NlpFeasible ((problem (chebApprox d.N) cb w.ocp sc).eq z) ((problem (chebApprox d.N) cb w.ocp sc).ineq z) (bounds w).lbg (bounds w).ubg z (bounds w).lbx (bounds w).ubx →
        cost d (chebApprox d.N) cb w.ocp (finish w r).x ≤ cost d (chebApprox d.N) cb w.ocp (ext z) := by
  obtain ⟨Q, q, c, B, b, hSPD, hQP⟩ := linQuad_isQP (sc := sc) hS hN (cheb_skew d hN)
    (fun j hj => by rw [cheb_w d.N ⟨j, by omega⟩]; exact Cheb.intWeights_pos hN _) hP hU hVX ht h hq
  rw [second_difference hQP.cost] at hgap
  have hδ' : δ = xs - (start w s).x := funext hδ
  obtain ⟨r, h1, h2, h3, h4, h5⟩ := hQP.solved hSPD heps he hmax hp hd hl hpd hex hs hu (start w s) (by rw [← hδ']; exact hgap)
  refine ⟨r, h1, h2, h3, fun i => ?_, h5, fun z hz => ?_⟩
  · show ext r.x i = _
    unfold ext; rw [dif_pos i.2, h4]
  · have := hQP.minimises hSPD hs hz
    show cost d (chebApprox d.N) cb w.ocp (ext r.x) ≤ _
    rw [h4]
    exact this

/-! ### An example: `x' = u`, cost `∫ x² + u²` over two seconds, `x(0) = 2` -/

def lqDims : Dims := ⟨1, 1, 0, 0, 1, 1⟩

instance : NeZero lqDims.M := ⟨by decide⟩
instance : NeZero lqDims.VAR := ⟨by decide⟩
instance : NeZero lqDims.NX := ⟨by decide⟩
instance : NeZero (lqDims.NEQ + lqDims.NINEQ) := ⟨by decide⟩

noncomputable def lqSrc : Src lqDims where
  dyn _ _ := .assign (.var 1)
  ineq _ _ := .skip
  lag _ := .assign (.bin .add (.un .abs2 (.var 0)) (.un .abs2 (.var 1)))
  mayer _ := .skip

noncomputable def lqWrap : Wrap lqDims ℝ :=
  let o : Obj lqDims ℝ := ⟨0, 1, fun _ => 0, fun _ => ⟨0, fun _ => 0⟩, fun _ => ⟨0, fun _ => 0⟩, ⟨0, fun _ => 0⟩, ⟨⟨0, fun _ => 0⟩, fun _ => ⟨0, fun _ => 0⟩⟩⟩
  initialConditions (construct ⟨fun _ => -10, fun _ => 10, fun _ => 0, fun _ => 0, fun _ => 0, fun _ => 0, fun _ => 0,
    setTimeLimits _ (chebApprox 1) o 0 2, fun _ => 0, fun _ => 0, none, 1, 1⟩) fun _ => 2

theorem lq_exact (time : ℕ → ℝ) : Exact lqSrc.cbs time (fun _ _ z => z 1) (fun _ _ _ => 0) (fun _ z => z 0 * z 0 + z 1 * z 1) (fun _ => 0) where
  dyn k _ z := src_dyn lqSrc (time k) z (fun _ => .var 1) (fun _ _ => rfl) (fun _ _ => trivial)
  ineq k _ z := ⟨fun _ _ i hi => absurd hi (by decide +revert), fun i hi => absurd hi (by decide +revert)⟩
  lag k _ z := src_lag lqSrc (time k) z (.bin .add (.un .abs2 (.var 0)) (.un .abs2 (.var 1))) rfl ⟨⟨trivial, trivial⟩, ⟨trivial, trivial⟩, trivial⟩
  mayer z := src_mayer_default lqSrc _ z rfl
  dyn2 k _ z := src_dyn2 lqSrc (time k) z (fun _ => .var 1) (fun _ _ => rfl) (fun _ _ => trivial) (fun _ _ => trivial)
  ineq2 k _ z := ⟨fun i hi => absurd hi (by decide +revert)⟩
  lag2 k _ z := src_lag2 lqSrc (time k) z (.bin .add (.un .abs2 (.var 0)) (.un .abs2 (.var 1))) rfl ⟨⟨trivial, trivial⟩, ⟨trivial, trivial⟩, trivial⟩ ⟨trivial, trivial⟩
  mayer2 z := ⟨rfl, isGradient_const 0 z, isHessian_affine (u := fun _ => 0) (fun z => isGradient_const 0 z) z⟩

theorem lq_linQuad : LinQuad lqDims (fun _ _ z => z 1) (fun _ _ _ => 0) (fun _ z => z 0 * z 0 + z 1 * z 1) (fun _ => 0) where
  dyn _ _ _ _ := isAffine_coord 1
  ineq _ _ _ _ := isAffine_const 0
  lag _ _ := by
    refine ⟨Matrix.diagonal fun _ => 2, 0, 0, diagonal_transpose _, fun z => ?_⟩
    have : z ⬝ᵥ (Matrix.diagonal fun _ => (2 : ℝ)) *ᵥ z = ∑ i : Fin 2, z i * (2 * z i) := Finset.sum_congr rfl fun i _ => by rw [mulVec_diagonal]
    have e : z ⬝ᵥ (Matrix.diagonal fun _ => (2 : ℝ)) *ᵥ z = z 0 * (2 * z 0) + z 1 * (2 * z 1) := this.trans (Fin.sum_univ_two _)
    rw [e, zero_dotProduct]
    ring
  lag_pos _ _ z hz := by
    have h : z 0 ≠ 0 ∨ z 1 ≠ 0 := by
      by_contra hc
      push Not at hc
      refine hz (funext fun i => ?_)
      have : ∀ i : Fin 2, (z : Fin 2 → ℝ) i = 0 := fun i => by fin_cases i; exacts [hc.1, hc.2]
      exact this i
    simp only [Pi.neg_apply, Pi.zero_apply]
    rcases h with h | h
    · nlinarith [mul_self_pos.2 h, mul_self_nonneg (z 1)]
    · nlinarith [mul_self_pos.2 h, mul_self_nonneg (z 0)]
  mayer := isQuad_zero
  mayer_nonneg _ := by norm_num

theorem cheb_one {j : ℕ} (hj : j < 2) : (chebApprox 1).w j = 1 ∧ (chebApprox 1).D j 0 = 1 / 2 ∧ (chebApprox 1).D j 1 = -1 / 2 := by
  have hn : Cheb.nodes 1 0 = 1 ∧ Cheb.nodes 1 1 = -1 := by
    constructor <;> norm_num [Cheb.nodes, Cheb.theta]
  refine ⟨?_, ?_, ?_⟩
  · have := cheb_w 1 ⟨j, hj⟩
    simp only at this
    rw [this]
    unfold Cheb.intWeights
    rw [if_neg (by norm_num), if_pos (by simp only; omega)]
    norm_num
  · have := cheb_D 1 ⟨j, hj⟩ 0
    simp only [Fin.val_zero] at this
    rw [this]
    have key : ∀ j : Fin 2, Cheb.diffMatrix 1 j 0 = 1 / 2 := by
      intro j
      fin_cases j <;>
      norm_num [Cheb.diffMatrix, Cheb.Dn, Cheb.cVec, hn.1, hn.2, Fin.sum_univ_succ]
    exact key _
  · have := cheb_D 1 ⟨j, hj⟩ 1
    simp only [Fin.val_one] at this
    rw [this]
    have key : ∀ j : Fin 2, Cheb.diffMatrix 1 j 1 = -1 / 2 := by
      intro j
      fin_cases j <;>
      norm_num [Cheb.diffMatrix, Cheb.Dn, Cheb.cVec, hn.1, hn.2, Fin.sum_univ_succ]
    exact key _

theorem var4 {P : Fin lqDims.VAR → Prop} (h0 : P 0) (h1 : P 1) (h2 : P 2) (h3 : P 3) (i : Fin lqDims.VAR) : P i := by
  have : ∀ i : Fin 4, P i := fun i => by fin_cases i; exacts [h0, h1, h2, h3]
  exact this i

theorem sum4 (φ : Fin lqDims.VAR → ℝ) : ∑ i, φ i = φ 0 + φ 1 + φ 2 + φ 3 := Fin.sum_univ_four φ

theorem ext4 (z : Fin lqDims.VAR → ℝ) : ext z 0 = z 0 ∧ ext z 1 = z 1 ∧ ext z 2 = z 2 ∧ ext z 3 = z 3 := ⟨rfl, rfl, rfl, rfl⟩

/-- The example in the solver's variables: final and initial state, final and initial control. -/
theorem lq_cost (sc : Scratch lqDims) (z : Fin lqDims.VAR → ℝ) :
    (problem (chebApprox 1) lqSrc.cbs lqWrap.ocp sc).cost z = z 0 * z 0 + z 1 * z 1 + z 2 * z 2 + z 3 * z 3 := by
  have hts : tScale lqDims lqWrap.ocp = 1 := by
    have h1 : lqWrap.ocp.tStop = 2 := rfl
    have h0 : lqWrap.ocp.tStart = 0 := rfl
    unfold tScale; rw [h1, h0]; norm_num [lqDims]
  rw [cost_closed_form (lq_exact _)]
  have eS : lqDims.S = 1 := rfl
  have eN : lqDims.N = 1 := rfl
  simp only [eS, eN, Finset.sum_range_succ, Finset.sum_range_zero, hts, (cheb_one (show 0 < 2 by norm_num)).1, (cheb_one (show 1 < 2 by norm_num)).1]
  show 0 + (0 + 1 * 1 * (z 0 * z 0 + z 2 * z 2) + 1 * 1 * (z 1 * z 1 + z 3 * z 3)) + 0 = _
  ring

theorem lq_constraints (sc : Scratch lqDims) (z : Fin lqDims.VAR → ℝ) {r : ℕ} (hr : r < 2) :
    constraints lqDims (chebApprox 1) lqSrc.cbs lqWrap.ocp sc.junk (ext z) sc.c0 r = (z 0 - z 1) / 2 - ext z (r + 2) := by
  have hts : tScale lqDims lqWrap.ocp = 1 := by
    have h1 : lqWrap.ocp.tStop = 2 := rfl
    have h0 : lqWrap.ocp.tStart = 0 := rfl
    unfold tScale; rw [h1, h0]; norm_num [lqDims]
  have h := lq_exact lqWrap.ocp.time
  have h1 : r < lqDims.NEQ := hr
  have hk : r < lqDims.NN := hr
  have e := equalities_at lqDims (chebApprox 1) lqSrc.cbs lqWrap.ocp sc.junk (ext z) sc.c0 (fun k i => node lqDims (ext z) k 1)
    (fun k hk old i hi => (h.dyn k hk 0).plain _ old i hi) (k := r) (i := 0) hk (by decide)
  have e2 := diffX_closed lqDims (chebApprox 1) (ext z) sc.junk (s := 0) (j := r) (i := 0) (by decide) (by show r ≤ 1; omega) (Or.inr rfl) (by decide)
  have er : r * lqDims.NX + 0 = r := by show r * 1 + 0 = r; omega
  have er2 : 0 * lqDims.N + r = r := by omega
  rw [er2] at e2
  rw [er, e2, hts] at e
  rw [constraints_eq_part lqDims _ _ _ _ _ _ h1, e]
  have eN : lqDims.N = 1 := rfl
  have eX : lqDims.NX = 1 := rfl
  simp only [eN, eX, Finset.sum_range_succ, Finset.sum_range_zero, (cheb_one hr).2.1, (cheb_one hr).2.2]
  have en : node lqDims (ext z) r 1 = ext z (r + 2) := by
    rw [node_eq]
    show ext z (r * 1 + 2 + 0) = _
    congr 1; omega
  rw [en]
  show 0 + 1 / 2 * z 0 + -1 / 2 * z 1 - 1 * _ = _
  ring

theorem lq_grad (sc : Scratch lqDims) (z : Fin lqDims.VAR → ℝ) : (problem (chebApprox 1) lqSrc.cbs lqWrap.ocp sc).costGrad z = fun i => 2 * z i := by
  have h := (problem_parts (sc := sc) (A := chebApprox 1) (o := lqWrap.ocp) (by decide) (by decide) (cheb_skew lqDims (by decide)) (lq_exact _) z).1
  have e : (problem (chebApprox 1) lqSrc.cbs lqWrap.ocp sc).cost = fun z => 1 / 2 * (z ⬝ᵥ (Matrix.diagonal fun _ => (2 : ℝ)) *ᵥ z) + (0 : Fin lqDims.VAR → ℝ) ⬝ᵥ z + 0 := by
    funext z
    have : z ⬝ᵥ (Matrix.diagonal fun _ => (2 : ℝ)) *ᵥ z = ∑ i, z i * (2 * z i) := Finset.sum_congr rfl fun i _ => by rw [mulVec_diagonal]
    rw [lq_cost, this, sum4, zero_dotProduct]
    ring
  rw [e] at h
  rw [gradient_unique h (isGradient_quad (diagonal_transpose _) 0 0 z), add_zero]
  funext i
  rw [mulVec_diagonal]

/-- Rows of the Jacobian. -/
noncomputable def lqRow (r : ℕ) : Fin lqDims.VAR → ℝ := fun i => if i = 0 then 1 / 2 else if i = 1 then -1 / 2 else if i.val = r + 2 then -1 else 0

theorem lq_jac (sc : Scratch lqDims) (z : Fin lqDims.VAR → ℝ) (r : Fin (lqDims.NEQ + lqDims.NINEQ)) :
    (problem (chebApprox 1) lqSrc.cbs lqWrap.ocp sc).jac z r = lqRow r := by
  have h := ((problem_parts (sc := sc) (A := chebApprox 1) (o := lqWrap.ocp) (by decide) (by decide) (cheb_skew lqDims (by decide)) (lq_exact _) z).2.2 r).2
  have e : (fun z : Fin lqDims.VAR → ℝ => constraints lqDims (chebApprox 1) lqSrc.cbs lqWrap.ocp sc.junk (ext z) sc.c0 r) = fun z => lqRow r ⬝ᵥ z + 0 := by
    funext z
    have hr : r.val < 2 := r.2
    rw [lq_constraints sc z hr]
    have : lqRow r ⬝ᵥ z = lqRow r 0 * z 0 + lqRow r 1 * z 1 + lqRow r 2 * z 2 + lqRow r 3 * z 3 := sum4 _
    rw [this]
    obtain ⟨-, -, h2, h3⟩ := ext4 z
    have hc : r.val = 0 ∨ r.val = 1 := by omega
    rcases hc with hc | hc
    · rw [hc]
      have e0 : lqRow 0 0 = 1 / 2 := by simp [lqRow]
      have e1 : lqRow 0 1 = -1 / 2 := by unfold lqRow; rw [if_neg (by decide), if_pos rfl]
      have e2 : lqRow 0 2 = -1 := by unfold lqRow; rw [if_neg (by decide), if_neg (by decide), if_pos (by decide)]
      have e3 : lqRow 0 3 = 0 := by unfold lqRow; rw [if_neg (by decide), if_neg (by decide), if_neg (by decide)]
      rw [e0, e1, e2, e3, h2]; ring
    · rw [hc]
      have e0 : lqRow 1 0 = 1 / 2 := by simp [lqRow]
      have e1 : lqRow 1 1 = -1 / 2 := by unfold lqRow; rw [if_neg (by decide), if_pos rfl]
      have e2 : lqRow 1 2 = 0 := by unfold lqRow; rw [if_neg (by decide), if_neg (by decide), if_neg (by decide)]
      have e3 : lqRow 1 3 = -1 := by unfold lqRow; rw [if_neg (by decide), if_neg (by decide), if_pos (by decide)]
      rw [e0, e1, e2, e3, h3]; ring
  rw [e] at h
  exact gradient_unique h (isGradient_linear _ _ z)

/-- The solution: from `2` to `2/3` with control `-2/3`. -/
noncomputable def lqSol : Fin lqDims.VAR → ℝ := fun i => if i = 0 then 2 / 3 else if i = 1 then 2 else -2 / 3

theorem lqSol_values : lqSol 0 = 2 / 3 ∧ lqSol 1 = 2 ∧ lqSol 2 = -2 / 3 ∧ lqSol 3 = -2 / 3 := by
  refine ⟨?_, ?_, ?_, ?_⟩ <;> unfold lqSol
  · rw [if_pos rfl]
  · rw [if_neg (by decide), if_pos rfl]
  · rw [if_neg (by decide), if_neg (by decide)]
  · rw [if_neg (by decide), if_neg (by decide)]

/-- Its multipliers: `-4/3` for the dynamics, `-16/3` for the initial state. -/
noncomputable def lqMult : Sqp.Dual ℝ lqDims.VAR lqDims.NEQ lqDims.NINEQ := Sum.elim (fun _ => -4 / 3) fun i => if i = 1 then -16 / 3 else 0

theorem lq_bounds : (∀ i : Fin lqDims.VAR, i ≠ 1 → (bounds lqWrap).lbx i = -10 ∧ (bounds lqWrap).ubx i = 10) ∧ (bounds lqWrap).lbx 1 = 2 ∧ (bounds lqWrap).ubx 1 = 2 := by
  refine ⟨fun i hi => ?_, ?_, ?_⟩
  · revert hi
    refine var4 (P := fun i => i ≠ 1 → (bounds lqWrap).lbx i = -10 ∧ (bounds lqWrap).ubx i = 10) ?_ ?_ ?_ ?_ i
    · exact fun _ => ⟨rfl, rfl⟩
    · exact fun h => absurd rfl h
    · exact fun _ => ⟨rfl, rfl⟩
    · exact fun _ => ⟨rfl, rfl⟩
  · rfl
  · rfl

theorem lq_stationary (sc : Scratch lqDims) (y : Sqp.Dual ℝ lqDims.VAR lqDims.NEQ lqDims.NINEQ) :
    Sqp.Stationary (problem (chebApprox 1) lqSrc.cbs lqWrap.ocp sc) (bounds lqWrap) lqSol y ↔ y = lqMult := by
  obtain ⟨v0, v1, v2, v3⟩ := lqSol_values
  obtain ⟨hb, hb1, hb2⟩ := lq_bounds
  have row : ∀ i, ((problem (chebApprox 1) lqSrc.cbs lqWrap.ocp sc).costGrad lqSol + (Sqp.eqRows ((problem (chebApprox 1) lqSrc.cbs lqWrap.ocp sc).jac lqSol))ᵀ *ᵥ Sqp.lamE y
      + (Sqp.ineqRows ((problem (chebApprox 1) lqSrc.cbs lqWrap.ocp sc).jac lqSol))ᵀ *ᵥ Sqp.lamI y + Sqp.lamX y) i
      = 2 * lqSol i + (lqRow 0 i * y (Sum.inl 0) + lqRow 1 i * y (Sum.inl 1)) + y (Sum.inr i) := by
    intro i
    have e1 : ((Sqp.eqRows ((problem (chebApprox 1) lqSrc.cbs lqWrap.ocp sc).jac lqSol))ᵀ *ᵥ Sqp.lamE y) i = lqRow 0 i * y (Sum.inl 0) + lqRow 1 i * y (Sum.inl 1) := by
      have : ((Sqp.eqRows ((problem (chebApprox 1) lqSrc.cbs lqWrap.ocp sc).jac lqSol))ᵀ *ᵥ Sqp.lamE y) i
          = ∑ r : Fin 2, (problem (chebApprox 1) lqSrc.cbs lqWrap.ocp sc).jac lqSol (Fin.castAdd lqDims.NINEQ (r : Fin lqDims.NEQ)) i * y (Sum.inl (Fin.castAdd lqDims.NINEQ (r : Fin lqDims.NEQ))) := rfl
      rw [this, Fin.sum_univ_two, lq_jac, lq_jac]
      rfl
    have e2 : ((Sqp.ineqRows ((problem (chebApprox 1) lqSrc.cbs lqWrap.ocp sc).jac lqSol))ᵀ *ᵥ Sqp.lamI y) i = 0 := by
      have : IsEmpty (Fin lqDims.NINEQ) := (inferInstance : IsEmpty (Fin 0))
      unfold mulVec dotProduct
      exact Finset.sum_of_isEmpty _
    rw [Pi.add_apply, Pi.add_apply, Pi.add_apply, e1, e2, lq_grad, add_zero]
  have r00 : lqRow 0 0 = 1 / 2 := by simp [lqRow]
  have r01 : lqRow 0 1 = -1 / 2 := by unfold lqRow; rw [if_neg (by decide), if_pos rfl]
  have r02 : lqRow 0 2 = -1 := by unfold lqRow; rw [if_neg (by decide), if_neg (by decide), if_pos (by decide)]
  have r03 : lqRow 0 3 = 0 := by unfold lqRow; rw [if_neg (by decide), if_neg (by decide), if_neg (by decide)]
  have r10 : lqRow 1 0 = 1 / 2 := by simp [lqRow]
  have r11 : lqRow 1 1 = -1 / 2 := by unfold lqRow; rw [if_neg (by decide), if_pos rfl]
  have r12 : lqRow 1 2 = 0 := by unfold lqRow; rw [if_neg (by decide), if_neg (by decide), if_neg (by decide)]
  have r13 : lqRow 1 3 = -1 := by unfold lqRow; rw [if_neg (by decide), if_neg (by decide), if_pos (by decide)]
  unfold Sqp.Stationary NlpKKT
  constructor
  · rintro ⟨h1, -, -, h4⟩
    have hx : ∀ i, i ≠ 1 → y (Sum.inr i) = 0 := by
      intro i hi
      have hb' := hb i hi
      have hs : lqSol i < 10 ∧ -10 < lqSol i := by
        refine var4 (P := fun i => lqSol i < 10 ∧ -10 < lqSol i) ?_ ?_ ?_ ?_ i
        · rw [v0]; norm_num
        · rw [v1]; norm_num
        · rw [v2]; norm_num
        · rw [v3]; norm_num
      rcases lt_trichotomy (y (Sum.inr i)) 0 with h | h | h
      · have := (h4 i).2 h
        rw [hb'.1] at this; linarith
      · exact h
      · have := (h4 i).1 h
        rw [hb'.2] at this; linarith
    have g := fun i => (row i).symm.trans (congrFun h1 i)
    have g1 := g 1
    have g2 := g 2
    have g3 := g 3
    simp only [Pi.zero_apply, v1, v2, v3, r01, r02, r03, r11, r12, r13, hx 2 (by decide), hx 3 (by decide)] at g1 g2 g3
    have y0 : y (Sum.inl 0) = -4 / 3 := by linarith
    have y1 : y (Sum.inl 1) = -4 / 3 := by linarith
    funext i
    obtain i | i := i
    · have : ∀ i : Fin 2, y (Sum.inl i) = -4 / 3 := fun i => by fin_cases i; exacts [y0, y1]
      exact this i
    · show y (Sum.inr i) = if i = 1 then -16 / 3 else 0
      by_cases hi : i = 1
      · rw [if_pos hi, hi]; linarith
      · rw [if_neg hi]; exact hx i hi
  · rintro rfl
    have hm : ∀ i, lqMult (Sum.inr i) = if i = 1 then -16 / 3 else 0 := fun i => rfl
    have h0 : lqMult (Sum.inl 0) = -4 / 3 := rfl
    have h1 : lqMult (Sum.inl 1) = -4 / 3 := rfl
    refine ⟨funext fun i => ?_, ⟨fun i => ?_, fun i => absurd i.2 (Nat.not_lt_zero _), fun i => ?_⟩, fun i => absurd i.2 (Nat.not_lt_zero _), fun i => ?_⟩
    · rw [row, h0, h1, hm, Pi.zero_apply]
      refine var4 (P := fun i => 2 * lqSol i + (lqRow 0 i * (-4 / 3) + lqRow 1 i * (-4 / 3)) + (if i = 1 then -16 / 3 else 0) = 0) ?_ ?_ ?_ ?_ i
      · rw [v0, r00, r10, if_neg (by decide)]; norm_num
      · rw [v1, r01, r11, if_pos rfl]; norm_num
      · rw [v2, r02, r12, if_neg (by decide)]; norm_num
      · rw [v3, r03, r13, if_neg (by decide)]; norm_num
    · have h2 : i.val < 2 := i.2
      show equalities lqDims (chebApprox 1) lqSrc.cbs lqWrap.ocp sc.junk (ext lqSol) sc.c0 i = 0
      rw [← constraints_eq_part lqDims _ _ _ _ _ _ i.2, lq_constraints sc lqSol h2, v0, v1]
      obtain ⟨-, -, e2, e3⟩ := ext4 lqSol
      have hc : i.val = 0 ∨ i.val = 1 := by omega
      rcases hc with hc | hc
      · rw [hc, e2, v2]; norm_num
      · rw [hc, e3, v3]; norm_num
    · by_cases hi : i = 1
      · rw [hi, hb1, hb2, v1]; norm_num
      · rw [(hb i hi).1, (hb i hi).2]
        refine var4 (P := fun i => -10 ≤ lqSol i ∧ lqSol i ≤ 10) ?_ ?_ ?_ ?_ i
        · rw [v0]; norm_num
        · rw [v1]; norm_num
        · rw [v2]; norm_num
        · rw [v3]; norm_num
    · show (0 < lqMult (Sum.inr i) → _) ∧ (lqMult (Sum.inr i) < 0 → _)
      rw [hm]
      by_cases hi : i = 1
      · rw [if_pos hi, hi, hb1, v1]; norm_num
      · rw [if_neg hi]; norm_num

/-- Non-vacuity of C165: the default solver, from the guess zero, returns the optimal trajectory, and `solution_x_at(1)` is `2/3`, whatever exact QP solver is used. -/
theorem lq_solved {qps : Sqp.QPSolver ℝ lqDims.VAR (lqDims.NEQ + lqDims.NINEQ)} (hex : Sqp.ExactQP qps) (sc : Scratch lqDims)
    (s : Sqp.State ℝ lqDims.VAR lqDims.NEQ lqDims.NINEQ (Sqp.identityPrecond ℝ _ _) qps) :
    ∃ r, Sqp.solve (Sqp.defaultEnv (1 / 2 ^ 52) Sqp.Settings.default (problem (chebApprox 1) lqSrc.cbs lqWrap.ocp sc) (bounds lqWrap)) (start lqWrap s) = some r ∧
      r.status = .SOLVED ∧ r.iter ≤ 2 ∧ (finish lqWrap r).x 0 = 2 / 3 ∧ solutionXAt (finish lqWrap r) 1 0 = some (2 / 3) := by
  have hn : infNorm lqMult ≤ 16 / 3 := by
    rw [infNorm_le_iff]
    refine ⟨by norm_num, fun i => ?_⟩
    obtain i | i := i
    · show |(-4 / 3 : ℝ)| ≤ _
      norm_num [abs_le]
    · show |(if i = 1 then -16 / 3 else 0 : ℝ)| ≤ _
      split_ifs <;> norm_num [abs_le]
  obtain ⟨r, h1, h2, h3, h4, -, -⟩ := linQuad_solved (d := lqDims) (sc := sc) (by decide) (by decide) rfl (by decide) (Or.inl (by decide)) lqWrap
    (by show (0 : ℝ) < 2; norm_num) (lq_exact _) lq_linQuad (eps := 1 / 2 ^ 52) (by norm_num) (cfg := Sqp.Settings.default)
    (by show (1 / 4 : ℝ) ≤ 1 / 2; norm_num) (by decide) (by show (0 : ℝ) ≤ 1 / 1000; norm_num) (by show (0 : ℝ) ≤ 1 / 1000; norm_num) (Sqp.identity_lawful _)
    (fun m qp => ⟨_, rfl⟩) hex ((lq_stationary sc _).2 rfl) (fun y => (lq_stationary sc y).1) s (δ := lqSol) (fun i => by show lqSol i = lqSol i - 0; ring)
    (by
      have e := lq_cost sc
      obtain ⟨v0, v1, v2, v3⟩ := lqSol_values
      change _ ≤ (1 / 2 - 1 / 4) * ((problem (chebApprox 1) lqSrc.cbs lqWrap.ocp sc).cost lqSol + (problem (chebApprox 1) lqSrc.cbs lqWrap.ocp sc).cost (-lqSol) -
        2 * (problem (chebApprox 1) lqSrc.cbs lqWrap.ocp sc).cost 0)
      rw [e, e, e]
      simp only [Pi.neg_apply, Pi.zero_apply, v0, v1, v2, v3]
      show 1 / 4 * infNorm lqMult * (1 / 2 ^ 52) ≤ _
      norm_num
      linarith)
  have hx : (finish lqWrap r).x 0 = 2 / 3 := (h4 0).trans lqSol_values.1
  refine ⟨r, h1, h2, h3, hx, ?_⟩
  have h5 := (x_at (finish lqWrap r) (1 : Fin 2) 0).1
  have h6 : (abs (finish lqWrap r)).x (1 : Fin 2) 0 = (finish lqWrap r).x 0 := rfl
  rw [← hx, ← h6]
  exact h5

theorem lqWrap_reachable : Reachable (chebApprox 1) lqWrap := ⟨_, _, 0, 2, [.initialConditions fun _ => 2], rfl, rfl⟩

/-- Non-vacuity of C164: the state polynomial returned for the example, whose final state is `2/3`, satisfies `x' = u` at both nodes up to `eps_prim = 0.001`. -/
example {qps : Sqp.QPSolver ℝ lqDims.VAR (lqDims.NEQ + lqDims.NINEQ)} (hex : Sqp.ExactQP qps) (sc : Scratch lqDims)
    (s : Sqp.State ℝ lqDims.VAR lqDims.NEQ lqDims.NINEQ (Sqp.identityPrecond ℝ _ _) qps) :
    ∃ (r : Sqp.State ℝ lqDims.VAR lqDims.NEQ lqDims.NINEQ (Sqp.identityPrecond ℝ _ _) qps) (Q : Polynomial ℝ),
      Sqp.solve (Sqp.defaultEnv (1 / 2 ^ 52) Sqp.Settings.default (problem (chebApprox 1) lqSrc.cbs lqWrap.ocp sc) (bounds lqWrap)) (start lqWrap s) = some r ∧
      Q.natDegree ≤ 1 ∧ Q.eval (lqWrap.grid 1) = 2 / 3 ∧
      ∀ l ≤ 1, |Q.derivative.eval (lqWrap.grid l) - point (finish lqWrap r) l 1| ≤ 1 / 1000 := by
  obtain ⟨r, h1, h2, -, -, h5⟩ := lq_solved hex sc s
  obtain ⟨Q, q1, -, q3, q4⟩ := (solved_trajectory (d := lqDims) (cb := lqSrc.cbs) (by decide) (by decide) (fun _ _ _ _ _ _ => rfl) (fun _ _ _ _ _ hi => absurd hi (by decide +revert))
    lqWrap_reachable (by show (0 : ℝ) < 2; norm_num) (sc := sc) rfl rfl h1 h2).1 0 (by decide) 0
  refine ⟨r, Q, h1, q1, ?_, fun l hl => ?_⟩
  · have := q3 1 le_rfl
    have e : ((0 * lqDims.N + 1 : ℕ) : ℤ) = 1 := rfl
    rw [e] at this
    exact (Option.some.inj (h5.symm.trans this)).symm
  · have := q4 l hl (Or.inr rfl)
    have e1 : (lqWrap.ocp.tStop - lqWrap.ocp.tStart) / (2 * (lqDims.S : ℝ)) = 1 := by
      show ((2 : ℝ) - 0) / (2 * ((1 : ℕ) : ℝ)) = 1
      norm_num
    rw [e1, one_mul, show 0 * lqDims.N + l = l by omega] at this
    exact this

end PolyMPC.MpcSqp
