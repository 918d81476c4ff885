import Verif.Props.GenericOcp

/-!
# C133: soft collocation in the optimal control program
-/

set_option linter.unusedSectionVars false

namespace PolyMPC.GenOcp

open PolyMPC.Ocp PolyMPC.CasCheb PolyMPC.Spec Polynomial

theorem addNorms_add {d : Dims} {A : Appr d ℝ} (sc : Scale ℝ) (D X U P : ℕ → ℝ) (q : ℕ) (es : List (Expr ℝ)) (c x : ℝ) :
    addNorms d A sc D X U P q es (c + x) = (addNorms d A sc D X U P q es c).map (· + x) := by
  induction es generalizing c with
  | nil => rfl
  | cons e es ih =>
    unfold addNorms
    cases A.deriv _ _ _ _ _ _ with
    | none => rfl
    | some F =>
      simp only [Option.bind_eq_bind, Option.bind_some]
      rw [← ih]
      congr 1; ring

theorem normTerms_add {d : Dims} {A : Appr d ℝ} (sc : Scale ℝ) (usr : User ℝ) (D X U P : ℕ → ℝ) (c x : ℝ) :
    normTerms d A sc usr D X U P (c + x) = (normTerms d A sc usr D X U P c).map (· + x) := by
  unfold normTerms
  cases usr.costIsZero with
  | true => rfl
  | false =>
    simp only [Bool.false_eq_true, if_false]
    rw [addNorms_add]
    cases addNorms d A sc D X U P 1 usr.norms c with
    | none => rfl
    | some y => exact addNorms_add ..

theorem addPenalty_add (ty : ℤ) (n : ℕ) (s : ℕ → ℝ) (c x : ℝ) : addPenalty ty n s (c + x) = (addPenalty ty n s c).map (· + x) := by
  unfold addPenalty
  split
  · show some _ = some _; congr 1; ring
  · split
    · split
      · show some _ = some _; congr 1; ring
      · rfl
    · rfl

theorem finish_soft {us : Bool} {ty : ℤ} {n : ℕ} {c x : ℝ} {b : Block ℝ} {pr fr : ℕ × (ℕ → ℝ)} {sl : ℕ → ℝ} {n0 : Nlp ℝ}
    (h : finish us ty n (c, b) pr fr sl = some n0) : ∃ n1, finish us ty n (c + x, Block.nil) pr fr sl = some n1 ∧ n1.f = n0.f + x ∧
      (RowsOk n0 ↔ RowsOk n1 ∧ allWithin b.n b.lb b.ub b.g) ∧ n0.c.n = b.n + n1.c.n ∧ n1.nVar = n0.nVar ∧ n1.lbx = n0.lbx ∧ n1.ubx = n0.ubx := by
  unfold finish at h ⊢
  obtain ⟨f, hf, rfl⟩ := Option.map_eq_some_iff.1 h
  have e : (if us && pr.1 + fr.1 ≠ 0 then addPenalty ty (pr.1 + fr.1) sl (c + x) else some (c + x)) = some (f + x) := by
    by_cases hc : (us && decide (pr.1 + fr.1 ≠ 0)) = true
    · rw [if_pos hc] at hf ⊢
      rw [addPenalty_add, hf]; rfl
    · rw [if_neg hc] at hf ⊢
      rw [← Option.some.inj hf]
  refine ⟨assemble us n Block.nil pr fr sl (f + x), by rw [e]; rfl, rfl, ?_, ?_, rfl, rfl, rfl⟩
  · rw [assemble_ok, assemble_ok]
    constructor
    · rintro ⟨h1, h2⟩; exact ⟨⟨fun r hr => absurd hr (Nat.not_lt_zero r), h2⟩, h1⟩
    · rintro ⟨⟨_, h2⟩, h1⟩; exact ⟨h1, h2⟩
  · show b.n + _ = b.n + (0 + _); rw [Nat.zero_add]

section Same
variable (d : Dims) (ND : ℕ) (A : Approx ℝ) (sc : Scale ℝ) (D X U P : ℕ → ℝ)

theorem norms_soft (q : ℕ) (es : List (Expr ℝ)) (c : ℝ) : addNorms d (soft d ND A) sc D X U P q es c = addNorms d (cheb d ND A) sc D X U P q es c := by
  induction es generalizing c with
  | nil => rfl
  | cons e es ih => unfold addNorms; simp only [ih]; rfl

theorem diffs_soft (q : ℕ) (es : List (Expr ℝ)) (c : ℕ × (ℕ → ℝ)) :
    addDiffs d (soft d ND A) sc D X U P q es c = addDiffs d (cheb d ND A) sc D X U P q es c := by
  induction es generalizing c with
  | nil => rfl
  | cons e es ih => unfold addDiffs; simp only [ih]; rfl

theorem terms_soft (usr : User ℝ) (c : ℝ) : normTerms d (soft d ND A) sc usr D X U P c = normTerms d (cheb d ND A) sc usr D X U P c := by
  unfold normTerms
  rw [norms_soft, show addNorms d (soft d ND A) sc D X U P 2 usr.nnorms = addNorms d (cheb d ND A) sc D X U P 2 usr.nnorms from
    funext (norms_soft d ND A sc D X U P 2 usr.nnorms)]

theorem path_soft (usr : User ℝ) : pathRows d (soft d ND A) sc usr D X U P = pathRows d (cheb d ND A) sc usr D X U P := by
  unfold pathRows
  simp only [diffs_soft]
  rfl

end Same

/-- The program of `SoftChebyshev` next to that of `Chebyshev` for the same problem, options and point. -/
theorem soft_core (d : Dims) (ND : ℕ) (o : Opts ℝ) (usr : User ℝ) (var D : ℕ → ℝ) (hS : 1 ≤ d.S) (hN : 1 ≤ d.N) (hX : 1 ≤ d.NX) {t0 tf : ℝ}
    (h : t0 < tf) {sc : Scale ℝ} (hs : scalers d o = some sc) {n0 : Nlp ℝ} (h0 : setup d (cheb d ND (scheme d.N)) o usr t0 tf var D = some n0) :
    ∃ n, setup d (soft d ND (scheme d.N)) o usr t0 tf var D = some n ∧
      n.f = n0.f + o.softRho.getD 1000000 * softDynamics d (scheme d.N) (dynFn d sc usr D) t0 tf var (uOf (cheb d ND (scheme d.N)) var)
        (pOf (cheb d ND (scheme d.N)) var) ∧
      0 ≤ softDynamics d (scheme d.N) (dynFn d sc usr D) t0 tf var (uOf (cheb d ND (scheme d.N)) var) (pOf (cheb d ND (scheme d.N)) var) ∧
      (RowsOk n0 ↔ RowsOk n ∧ softDynamics d (scheme d.N) (dynFn d sc usr D) t0 tf var (uOf (cheb d ND (scheme d.N)) var)
        (pOf (cheb d ND (scheme d.N)) var) = 0) ∧
      n0.c.n = d.VARX + n.c.n ∧ n.nVar = n0.nVar ∧ n.lbx = n0.lbx ∧ n.ubx = n0.ubx := by
  obtain ⟨sc', ty, cd, pr, fr, h1, h2, h3, h4, h5, h6⟩ := setup_some h0
  rw [hs] at h1
  cases h1
  have hv := varx_ne hS hN hX
  unfold costDyn at h3
  rw [show (cheb d ND (scheme d.N)).dynamics (dynFn d sc usr D) t0 tf var (uOf (cheb d ND (scheme d.N)) var)
        (pOf (cheb d ND (scheme d.N)) var) = (d.VARX, collocateDynamics d (scheme d.N) (dynFn d sc usr D) t0 tf var
          (uOf (cheb d ND (scheme d.N)) var) (pOf (cheb d ND (scheme d.N)) var)) from rfl] at h3
  simp only [if_neg hv] at h3
  obtain ⟨c, hc, rfl⟩ := Option.map_eq_some_iff.1 h3
  obtain ⟨z1, z2⟩ := soft_zero_iff d (dynFn d sc usr D) var (uOf (cheb d ND (scheme d.N)) var) (pOf (cheb d ND (scheme d.N)) var) hS hN h
  obtain ⟨n, e1, e2, e3, e4⟩ := finish_soft (x := o.softRho.getD 1000000 * softDynamics d (scheme d.N) (dynFn d sc usr D) t0 tf var
    (uOf (cheb d ND (scheme d.N)) var) (pOf (cheb d ND (scheme d.N)) var)) h6
  refine ⟨n, (setup_of (A := soft d ND (scheme d.N)) hs h2 ?_ ((path_soft ..).trans h4) h5).trans e1, e2, z1, ?_, e4⟩
  · refine (congrArg (Option.map _) (terms_soft ..)).trans ?_
    show (normTerms d (cheb d ND (scheme d.N)) sc usr D var (uOf (cheb d ND (scheme d.N)) var) (pOf (cheb d ND (scheme d.N)) var)
      ((cheb d ND (scheme d.N)).cost (mayerFn d sc usr D) (lagFn d sc usr D) t0 tf var (uOf (cheb d ND (scheme d.N)) var)
        (pOf (cheb d ND (scheme d.N)) var) + _)).map _ = _
    rw [normTerms_add, hc]
    rfl
  · rw [e3, z2]
    exact and_congr_right fun _ => eq_ok _ _

/-- `r k i` is the residual of the dynamics in component `i` at node `k`, with respect to scaled time: at the nodes of segment `s` (its last one
belongs to the next segment) it is `(tf - t0)/(2 S) (Q' - f)` for the polynomial `Q` through the state values of the segment. -/
def IsResidual (d : Dims) (t0 tf : ℝ) (usr : User ℝ) (var D : ℕ → ℝ) (r : ℕ → ℕ → ℝ) : Prop :=
  ∀ s < d.S, ∀ i < d.NX, ∀ Q : ℝ[X], Q.natDegree ≤ d.N → (∀ l ≤ d.N, Q.eval (segTime d.S d.N t0 tf s l) = var ((s * d.N + l) * d.NX + i)) →
    ∀ j ≤ d.N, (j < d.N ∨ s + 1 = d.S) → r (s * d.N + j) i = (tf - t0) / (2 * d.S) * (Q.derivative.eval (segTime d.S d.N t0 tf s j)
      - usr.dyn (xAt d var (s * d.N + j)) (uAt d var (s * d.N + j)) (pAt d var) D i)

theorem residual_cheb (d : Dims) (ND : ℕ) (usr : User ℝ) (var D : ℕ → ℝ) (hN : 1 ≤ d.N) (t0 tf : ℝ) :
    IsResidual d t0 tf usr var D fun k i => collocateDynamics d (scheme d.N) (dynFn d one usr D) t0 tf var (uOf (cheb d ND (scheme d.N)) var)
      (pOf (cheb d ND (scheme d.N)) var) (k * d.NX + i) := by
  intro s hs i hi Q hQ hv j hj hjs
  show collocateDynamics d (scheme d.N) (dynFn d one usr D) t0 tf var (uOf (cheb d ND (scheme d.N)) var)
      (pOf (cheb d ND (scheme d.N)) var) ((s * d.N + j) * d.NX + i) = _
  rw [CasCheb.dynamics_closed d _ _ t0 tf _ _ _ hs hj hjs hi,
      seg_exact hN ((tf - t0) / d.S / 2) (tf - s * ((tf - t0) / d.S) - (tf - t0) / d.S / 2) hQ
        (fun l hl => by rw [← segTime_eq, hv l hl]) hj, ← segTime_eq, scale_eq, dyn_at]
  ring

/-- **C133.** The program of `SoftChebyshev`. It has the rows of the program of `Chebyshev` except those of the dynamics, and its objective is
that objective plus `ρ` (`1e6` unless given) times the quadrature of the squared residuals of the dynamics, with respect to scaled time. A point
is feasible for the program with constraints iff it is feasible for the soft one and the penalty vanishes there. -/
theorem soft_program (d : Dims) (ND : ℕ) (o : Opts ℝ) (usr : User ℝ) (var D : ℕ → ℝ) (hS : 1 ≤ d.S) (hN : 1 ≤ d.N) (hX : 1 ≤ d.NX) {t0 tf : ℝ}
    (h : t0 < tf) (hsc : o.scaling.getD false = false) {n0 : Nlp ℝ} (h0 : setup d (cheb d ND (scheme d.N)) o usr t0 tf var D = some n0) :
    ∃ n r, setup d (soft d ND (scheme d.N)) o usr t0 tf var D = some n ∧ IsResidual d t0 tf usr var D r ∧
      n.f = n0.f + o.softRho.getD 1000000 * ∑ s ∈ Finset.range d.S, (tf - t0) / (2 * d.S) * ∑ m ∈ Finset.range (d.N + 1),
        (chebApprox d.N).w m * ∑ i ∈ Finset.range d.NX, r (s * d.N + m) i ^ 2 ∧
      (RowsOk n0 ↔ RowsOk n ∧ ∀ k < d.NN, ∀ i < d.NX, r k i = 0) ∧
      n0.c.n = d.VARX + n.c.n ∧ n.nVar = n0.nVar ∧ n.lbx = n0.lbx ∧ n.ubx = n0.ubx := by
  obtain ⟨n, h1, h2, _, h4, h5⟩ := soft_core d ND o usr var D hS hN hX h (scalers_off hsc) h0
  refine ⟨n, _, h1, residual_cheb d ND usr var D hN t0 tf, ?_, ?_, h5⟩
  · rw [h2, soft_closed]
    congr 2
    refine Finset.sum_congr rfl fun s _ => ?_
    rw [show CasCheb.tScale d t0 tf = (tf - t0) / (2 * d.S) by unfold CasCheb.tScale; push_cast; rfl]
    congr 1
    refine Finset.sum_congr rfl fun m hm => ?_
    rw [(scheme_template (Nat.lt_succ_iff.1 (Finset.mem_range.1 hm)) (Nat.zero_le _)).2.2]
  · rw [h4, (soft_zero_iff d _ var _ _ hS hN h).2]
    refine and_congr_right fun _ => ⟨fun hz k hk i hi => hz _ (xIdx_lt d hk hi), fun hz r hr => ?_⟩
    obtain ⟨k, i, hk, hi, rfl⟩ := blk_split hr
    exact hz k hk i hi

/-- **C133 (negative).** Scaling changes the soft objective: at the scaled point the residual of component `i` is weighted with the square of its
scaling factor. The rest of the program is that of the problem without scaling factors. -/
theorem soft_scaled (d : Dims) (ND : ℕ) (o : Opts ℝ) (usr : User ℝ) (v D : ℕ → ℝ) (hS : 1 ≤ d.S) (hN : 1 ≤ d.N) (hX : 1 ≤ d.NX) {t0 tf : ℝ}
    (h : t0 < tf) {sc : Scale ℝ} (hs : scalers d o = some sc) (hn : Nz d sc) {n0 : Nlp ℝ}
    (h0 : setup d (cheb d ND (scheme d.N)) o.unscaled (usr.paramScaled sc.p) t0 tf v D = some n0) :
    ∃ n r, setup d (soft d ND (scheme d.N)) o usr t0 tf (rescale d.NX d.NN d.NU d.NN d.NP sc.x sc.u sc.p v) D = some n ∧
      IsResidual d t0 tf (usr.paramScaled sc.p) v D r ∧
      n.f = n0.f + o.softRho.getD 1000000 * ∑ s ∈ Finset.range d.S, (tf - t0) / (2 * d.S) * ∑ m ∈ Finset.range (d.N + 1),
        (chebApprox d.N).w m * ∑ i ∈ Finset.range d.NX, (sc.x i * r (s * d.N + m) i) ^ 2 := by
  rcases scaling_cheb d ND (scheme d.N) hS hN hX o usr hs hn t0 tf v D with ⟨_, e⟩ | ⟨n', n1, e1, e2, e3⟩
  · rw [h0] at e; cases e
  · rw [h0] at e2; cases e2
    obtain ⟨n, h1, h2, -⟩ := soft_core d ND o usr _ D hS hN hX h hs e1
    refine ⟨n, _, h1, residual_cheb d ND (usr.paramScaled sc.p) v D hN t0 tf, ?_⟩
    rw [h2, e3.2.2.2.1, soft_closed]
    congr 2
    refine Finset.sum_congr rfl fun s hs' => ?_
    rw [show CasCheb.tScale d t0 tf = (tf - t0) / (2 * d.S) by unfold CasCheb.tScale; push_cast; rfl]
    congr 1
    refine Finset.sum_congr rfl fun m hm => ?_
    have hm' := Nat.lt_succ_iff.1 (Finset.mem_range.1 hm)
    rw [(scheme_template hm' (Nat.zero_le _)).2.2]
    congr 1
    refine Finset.sum_congr rfl fun i hi => ?_
    have hi := Finset.mem_range.1 hi
    have e := cd_rel (scheme d.N) hn (rel_rescale (cheb d ND (scheme d.N)) sc v) D usr t0 tf (xIdx_lt d (node_lt d (Finset.mem_range.1 hs') hm') hi)
    rw [mod_blk _ hi] at e
    exact congrArg (· ^ 2) e

end PolyMPC.GenOcp
