import Verif.Lemmas.OldColloc
import Verif.Spec.OldColloc
import Verif.Props.Ocp

/-!
# The older collocation classes: residual and its derivatives (C221, C222)
-/

namespace PolyMPC.OldColloc
open AD Spec Ocp

set_option linter.unusedSectionVars false
set_option linter.unusedVariables false

/-! ### C221: residual -/

variable (d : Dims) (f0 : Dyn d ℝ) (F : ℕ → (Fin (MU d) → ℝ) → (ℕ → ℝ) → ℝ)

theorem eval_row (o : Ode d ℝ) (hF : OldDyn o.f F) (var : ℕ → ℝ) (t0 tf : ℝ) (v0 r0 : ℕ → ℝ) {k i : ℕ} (hk : k < d.NN) (hi : i < d.NX) :
    o.eval d var t0 tf v0 r0 (k * d.NX + i) = ∑ j ∈ Finset.range d.VARX, o.diffMat (k * d.NX + i) j * var j
      - (tf - t0) / (2 * d.S) * F i (nodeXU d var k) (par d var) := by
  unfold Ode.eval
  have h := gen_aux d d.NX o.f.plain F hF var v0 r0 d.NN k hk i hi
  refine (congrArg (fun q => -tScale d t0 tf * q + ∑ j ∈ Finset.range d.VARX, o.diffMat (k * d.NX + i) j * var j) h).trans ?_
  unfold tScale
  push_cast
  ring

/-- **C221.** Row `(k, i)` of the constraint evaluated by a default constructed `ode_collocation`, `k` being node `j` of segment `s`: the
derivative of the interpolant through the states of that segment minus the scaled dynamics. -/
theorem ode_residual (A : Approx ℝ) (y0 : ℕ → Dual (MU d) ℝ) (hF : OldDyn f0 F) (var : ℕ → ℝ) (t0 tf : ℝ) (v0 r0 : ℕ → ℝ) (hS : 1 ≤ d.S) (hN : 1 ≤ d.N)
    {s j i : ℕ} (hs : s < d.S) (hj : j ≤ d.N) (hjs : j < d.N ∨ s + 1 = d.S) (hi : i < d.NX) :
    (Ode.mk0 d A f0 y0).eval d var t0 tf v0 r0 ((s * d.N + j) * d.NX + i)
      = ∑ l ∈ Finset.range (d.N + 1), A.D j l * var ((s * d.N + l) * d.NX + i)
        - (tf - t0) / (2 * d.S) * F i (nodeXU d var (s * d.N + j)) (par d var) := by
  rw [eval_row d F (Ode.mk0 d A f0 y0) hF var t0 tf v0 r0 (node_lt d hs hj) hi]
  congr 1
  exact kron_row d A hS hN hs hj hjs hi var

/-- The states and controls of a stacked vector `(x, u, p)`. -/
def xuOf (d : Dims) (z : Fin d.M → ℝ) : Fin (MU d) → ℝ := fun i => z ⟨i, by have := i.2; unfold MU at this; unfold Dims.M; omega⟩
/-- The parameters of a stacked vector `(x, u, p)`. -/
def pOf (d : Dims) (z : Fin d.M → ℝ) : ℕ → ℝ := fun i => if h : i < d.NP then z ⟨d.NX + d.NU + i, by unfold Dims.M; omega⟩ else 0

/-- **C221.** For the same dynamics and time limits, `ode_collocation` and `ContinuousOCP` compute the same differential constraints, whatever
the uninitialised storage of either holds. So what is known about the latter (C38) holds for the former. -/
theorem ode_residual_ocp (A : Approx ℝ) (y0 : ℕ → Dual (MU d) ℝ) (hF : OldDyn f0 F) (cb : Cbs d ℝ) (o : Ocp.Obj d ℝ)
    (hcb : ∀ z t old, ∀ i < d.NX, cb.dyn z t old i = F i (xuOf d z) (pOf d z))
    (hp : ∀ i z p p', (∀ q < d.NP, p q = p' q) → F i z p = F i z p')
    (var : ℕ → ℝ) (v0 r0 : ℕ → ℝ) (junk : ℕ → ℕ → ℝ) (c0 : ℕ → ℝ) (hS : 1 ≤ d.S) (hN : 1 ≤ d.N) {r : ℕ} (hr : r < d.VARX) :
    (Ode.mk0 d A f0 y0).eval d var o.tStart o.tStop v0 r0 r = constraints d A cb o junk var c0 r := by
  obtain ⟨k, i, hk, hi, rfl⟩ := blk_split (n := d.NX) (m := d.NN) (r := r) hr
  obtain ⟨s, j, hs, hj, hjs, rfl⟩ := node_split d hS hN hk
  rw [ode_residual d f0 F A y0 hF var _ _ v0 r0 hS hN hs hj hjs hi,
    residual d A cb o junk var c0 (fun z t old old' i hi => by rw [hcb z t old i hi, hcb z t old' i hi]) hs hj hjs hi, hcb _ _ _ i hi]
  congr 2
  have e : xuOf d (node d var (s * d.N + j)) = nodeXU d var (s * d.N + j) := by
    funext q
    have hq := q.2
    unfold MU at hq
    unfold xuOf node nodeXU
    by_cases h : q.val < d.NX
    · simp only [h, if_true]
    · simp only [h, if_false, if_pos hq]
  rw [e]
  refine hp i _ _ _ fun q hq => ?_
  unfold pOf par node
  rw [dif_pos hq]
  simp only [show ¬ d.NX + d.NU + q < d.NX by omega, show ¬ d.NX + d.NU + q < d.NX + d.NU by omega, if_false]
  congr 1; omega

/-- **C221.** An object constructed from a dynamics functor ignores that functor and has no differentiation matrix: it uses a default
constructed functor, returns the scaled dynamics only, and its linearisation reads uninitialised storage. -/
theorem ode_from_functor (f : Dyn d ℝ) (y0 : ℕ → Dual (MU d) ℝ) (hF : OldDyn f0 F) (var : ℕ → ℝ) (t0 tf : ℝ) (v0 r0 : ℕ → ℝ) {k i : ℕ} (hk : k < d.NN)
    (hi : i < d.NX) :
    (Ode.mk1 d f0 f y0).eval d var t0 tf v0 r0 (k * d.NX + i) = -((tf - t0) / (2 * d.S) * F i (nodeXU d var k) (par d var)) ∧
    (Ode.mk1 d f0 f y0).linearized d var t0 tf v0 = none := by
  refine ⟨?_, rfl⟩
  rw [eval_row d F (Ode.mk1 d f0 f y0) hF var t0 tf v0 r0 hk hi]
  simp [Ode.mk1]

/-- **C221.** Hence such an object agrees with a default constructed one at a point iff the derivatives of the interpolants vanish at all nodes,
that is, for trajectories that are constant as far as the differentiation matrix can tell. -/
theorem ode_from_functor_iff (f : Dyn d ℝ) (A : Approx ℝ) (y0 y0' : ℕ → Dual (MU d) ℝ) (hF : OldDyn f0 F) (var : ℕ → ℝ) (t0 tf : ℝ) (v0 r0 : ℕ → ℝ)
    (hS : 1 ≤ d.S) (hN : 1 ≤ d.N) :
    (∀ r < d.VARX, (Ode.mk1 d f0 f y0).eval d var t0 tf v0 r0 r = (Ode.mk0 d A f0 y0').eval d var t0 tf v0 r0 r) ↔
    ∀ s < d.S, ∀ j ≤ d.N, (j < d.N ∨ s + 1 = d.S) → ∀ i < d.NX,
      ∑ l ∈ Finset.range (d.N + 1), A.D j l * var ((s * d.N + l) * d.NX + i) = 0 := by
  constructor
  · intro h s hs j hj hjs i hi
    have h1 := h ((s * d.N + j) * d.NX + i) (xIdx_lt d (node_lt d hs hj) hi)
    rw [(ode_from_functor d f0 F f y0 hF var t0 tf v0 r0 (node_lt d hs hj) hi).1, ode_residual d f0 F A y0' hF var t0 tf v0 r0 hS hN hs hj hjs hi] at h1
    linarith
  · intro h r hr
    obtain ⟨k, i, hk, hi, rfl⟩ := blk_split (n := d.NX) (m := d.NN) (r := r) hr
    obtain ⟨s, j, hs, hj, hjs, rfl⟩ := node_split d hS hN hk
    rw [(ode_from_functor d f0 F f y0 hF var t0 tf v0 r0 hk hi).1, ode_residual d f0 F A y0' hF var t0 tf v0 r0 hS hN hs hj hjs hi, h s hs j hj hjs i hi]
    ring

/-- **C221.** `constraint_collocation::generic_function` writes the values of the functor at all nodes and nothing else. -/
theorem generic_function_values (NY : ℕ) (func : (Fin (MU d) → ℝ) → (ℕ → ℝ) → (ℕ → ℝ) → ℕ → ℝ) (G : ℕ → (Fin (MU d) → ℝ) → (ℕ → ℝ) → ℝ)
    (hG : ∀ z p old, ∀ i < NY, func z p old i = G i z p) (var v0 r0 : ℕ → ℝ) :
    (∀ k < d.NN, ∀ i < NY, genericFunction d NY func var v0 r0 (k * NY + i) = G i (nodeXU d var k) (par d var)) ∧
    ∀ r, d.NN * NY ≤ r → genericFunction d NY func var v0 r0 r = v0 r := by
  refine ⟨fun k hk i hi => gen_aux d NY func G hG var v0 r0 d.NN k hk i hi, fun r hr => ?_⟩
  unfold genericFunction
  refine loop_none (fun s : (ℕ → ℝ) × (ℕ → ℝ) => s.2 r) (r0, v0) fun i hi s => ?_
  show setSeg s.2 (i * NY) NY _ r = s.2 r
  unfold setSeg
  have : (i + 1) * NY ≤ d.NN * NY := Nat.mul_le_mul_right _ hi
  rw [Nat.add_mul] at this
  rw [if_neg (by omega)]

/-! ### C222: Jacobian -/

theorem par_withPar (x z : Fin d.VAR → ℝ) : par d (ext (withPar d x z)) = par d (ext x) := by
  funext i
  unfold par ext withPar
  by_cases h : d.VARX + d.VARU + i < d.VAR
  · rw [dif_pos h, dif_pos h, if_neg (by simp)]
  · rw [dif_neg h, dif_neg h]

theorem nodeXU_withPar (x z : Fin d.VAR → ℝ) {k : ℕ} (hk : k < d.NN) : nodeXU d (ext (withPar d x z)) k = nodeXU d (ext z) k := by
  rw [nodeXU_ext d _ hk, nodeXU_ext d _ hk]
  funext i
  unfold withPar
  exact if_pos (xuIdx_lt d hk i.2)

theorem withPar_self (x : Fin d.VAR → ℝ) : withPar d x x = x := by
  funext c; unfold withPar; split_ifs <;> rfl

theorem ext_withPar (x z : Fin d.VAR → ℝ) {j : ℕ} (hj : j < d.VARX) : ext (withPar d x z) j = ext z j := by
  unfold ext withPar
  have : j < d.VAR := by unfold Dims.VAR; omega
  rw [dif_pos this, dif_pos this, if_pos (by show j < _; omega)]

theorem grad_unique {n : ℕ} {f : (Fin n → ℝ) → ℝ} {u v x : Fin n → ℝ} (hu : IsGradient f u x) (hv : IsGradient f v x) : u = v := by
  have h : gradMap u = gradMap v := HasFDerivAt.unique hu hv
  funext i
  have := congrArg (fun L : (Fin n → ℝ) →L[ℝ] ℝ => L (Pi.single i 1)) h
  simpa [gradMap_apply, Pi.single_apply] using this

theorem isGradient_withPar {f : (Fin d.VAR → ℝ) → ℝ} {v x : Fin d.VAR → ℝ} (h : IsGradient f v x) :
    IsGradient (fun z => f (withPar d x z)) (fun c => if c.val < d.VARX + d.VARU then v c else 0) x := by
  have hn : HasFDerivAt (fun z : Fin d.VAR → ℝ => withPar d x z)
      (ContinuousLinearMap.pi fun c : Fin d.VAR => if c.val < d.VARX + d.VARU then
        ContinuousLinearMap.proj (R := ℝ) (φ := fun _ : Fin d.VAR => ℝ) c else 0) x := by
    refine hasFDerivAt_pi.2 fun c => ?_
    unfold withPar
    by_cases hc : c.val < d.VARX + d.VARU
    · simp only [if_pos hc]; exact hasFDerivAt_apply _ x
    · simp only [if_neg hc]; exact hasFDerivAt_const _ _
  have h' : HasFDerivAt f (gradMap v) ((fun z : Fin d.VAR → ℝ => withPar d x z) x) := by
    show HasFDerivAt f (gradMap v) (withPar d x x)
    rw [withPar_self]; exact h
  refine HasFDerivAt.congr_fderiv (HasFDerivAt.comp x h' hn) ?_
  ext z
  simp only [ContinuousLinearMap.comp_apply, gradMap_apply, ContinuousLinearMap.pi_apply]
  refine Finset.sum_congr rfl fun c _ => ?_
  by_cases hc : c.val < d.VARX + d.VARU
  · simp only [if_pos hc, ContinuousLinearMap.proj_apply]
  · simp only [if_neg hc, _root_.zero_apply, mul_zero, zero_mul]

/-- **C222.** With exact AD the linearisation of a properly constructed object succeeds, returns the residual, and each row of the returned
matrix is the gradient of that row of the residual with the parameters held fixed; the columns of the parameters are zero. -/
theorem ode_jacobian (o : Ode d ℝ) (ho : o.seeded = true) (hF : OldDyn o.f F) (x : Fin d.VAR → ℝ)
    (hA : ∀ k < d.NN, OldDynAD o.f F (nodeXU d (ext x) k) (par d (ext x))) (t0 tf : ℝ) (v0 v1 r1 : ℕ → ℝ) :
    ∃ J b o', o.linearized d (ext x) t0 tf v0 = some (J, b, o') ∧ o'.f = o.f ∧ o'.diffMat = o.diffMat ∧ o'.seeded = true ∧
      ∀ r < d.VARX, b r = o.eval d (ext x) t0 tf v1 r1 r ∧
        IsGradient (fun z => o.eval d (ext (withPar d x z)) t0 tf v1 r1 r) (fun c => J r c) x ∧ ∀ c, d.VARX + d.VARU ≤ c → J r c = 0 := by
  have hch : ∀ k i, ∃ a : Dual (MU d) ℝ, k < d.NN → i < d.NX → (∀ old, o.f.ad (nodeXU d (ext x) k) (par d (ext x)) old i = a) ∧
      AdExact a (fun z => F i z (par d (ext x))) (nodeXU d (ext x) k) := by
    intro k i
    by_cases h : k < d.NN ∧ i < d.NX
    · obtain ⟨a, ha⟩ := hA k h.1 i h.2
      exact ⟨a, fun _ _ => ha⟩
    · exact ⟨⟨0, fun _ => 0⟩, fun h1 h2 => absurd ⟨h1, h2⟩ h⟩
  choose Y hY using hch
  obtain ⟨J, b, o', e, h1, h2, h3, hc⟩ := linearized_closed d o ho (ext x) t0 tf v0 Y fun k hk old i hi => (hY k i hk hi).1 old
  refine ⟨J, b, o', e, h1, h2, h3, fun r hr => ?_⟩
  obtain ⟨k, i, hk, hi, rfl⟩ := blk_split (n := d.NX) (m := d.NN) (r := r) hr
  obtain ⟨hb, hJ⟩ := hc k hk i hi
  have hts : tScale d t0 tf = (tf - t0) / (2 * d.S) := by unfold tScale; push_cast; rfl
  refine ⟨?_, ?_, fun c hcc => ?_⟩
  · rw [hb, eval_row d F o hF (ext x) t0 tf v1 r1 hk hi, (hY k i hk hi).2.1, hts]
  · have e1 : (fun z : Fin d.VAR → ℝ => o.eval d (ext (withPar d x z)) t0 tf v1 r1 (k * d.NX + i))
        = fun z => -tScale d t0 tf * F i (nodeXU d (ext z) k) (par d (ext x))
          + ∑ j ∈ Finset.range d.VARX, o.diffMat (k * d.NX + i) j * ext z j := by
      funext z
      rw [eval_row d F o hF _ t0 tf v1 r1 hk hi, par_withPar, nodeXU_withPar d x z hk, hts,
        Finset.sum_congr rfl fun j hj => by rw [ext_withPar d x z (Finset.mem_range.1 hj)]]
      ring
    rw [e1]
    have e2 : (fun c : Fin d.VAR => J (k * d.NX + i) c) = fun c : Fin d.VAR =>
        -tScale d t0 tf * scat d k (ext (Y k i).der) c + ∑ j ∈ Finset.range d.VARX, o.diffMat (k * d.NX + i) j * (if j = c.val then 1 else 0) := by
      funext c
      rw [hJ c]
      congr 1
      · unfold scat
        rw [Finset.mul_sum]
        refine Finset.sum_congr rfl fun q _ => ?_
        by_cases h : xuIdx d k q = c.val
        · rw [if_pos h, if_pos h]; rfl
        · rw [if_neg h, if_neg h, mul_zero]
      · by_cases h : c.val < d.VARX
        · rw [if_pos h, Finset.sum_eq_single c.val]
          · rw [if_pos rfl, mul_one]
          · intro b _ hb; rw [if_neg hb, mul_zero]
          · intro h'; exact absurd (Finset.mem_range.2 h) h'
        · rw [if_neg h, Finset.sum_eq_zero]
          intro b hb
          have := Finset.mem_range.1 hb
          rw [if_neg (by omega), mul_zero]
    rw [e2]
    refine IsGradient.add' (IsGradient.smul' _ (isGradient_xu d hk (hY k i hk hi).2.2)) (IsGradient.sum' _ fun j hj => IsGradient.smul' _ ?_)
    exact isGradient_ext (by have := Finset.mem_range.1 hj; unfold Dims.VAR; omega) x
  · rw [hJ c, scat_par d _ hk hcc, if_neg (by omega), add_zero]

/-- **C222.** If the residual is differentiable with respect to all variables, the returned rows are its gradients iff its derivatives with
respect to the parameters vanish: the linearisation never sees the parameters. -/
theorem ode_jacobian_iff (o : Ode d ℝ) (ho : o.seeded = true) (hF : OldDyn o.f F) (x : Fin d.VAR → ℝ)
    (hA : ∀ k < d.NN, OldDynAD o.f F (nodeXU d (ext x) k) (par d (ext x))) (t0 tf : ℝ) (v0 v1 r1 : ℕ → ℝ) :
    ∃ J b o', o.linearized d (ext x) t0 tf v0 = some (J, b, o') ∧
      ∀ r < d.VARX, ∀ v : Fin d.VAR → ℝ, IsGradient (fun z => o.eval d (ext z) t0 tf v1 r1 r) v x →
        (IsGradient (fun z => o.eval d (ext z) t0 tf v1 r1 r) (fun c => J r c) x ↔ ∀ c : Fin d.VAR, d.VARX + d.VARU ≤ c.val → v c = 0) := by
  obtain ⟨J, b, o', e, -, -, -, h⟩ := ode_jacobian d F o ho hF x hA t0 tf v0 v1 r1
  refine ⟨J, b, o', e, fun r hr v hv => ?_⟩
  obtain ⟨-, h2, h3⟩ := h r hr
  constructor
  · intro hg c hc
    rw [grad_unique hv hg]; exact h3 c hc
  · intro hz
    have h4 := isGradient_withPar d hv
    have e2 := grad_unique h2 h4
    have e3 : (fun c : Fin d.VAR => J r c) = v := by
      rw [e2]
      funext c
      by_cases hc : c.val < d.VARX + d.VARU
      · rw [if_pos hc]
      · rw [if_neg hc, hz c (by omega)]
    rw [e3]; exact hv

/-! ### Cases -/

/-- One state, one control, one parameter, one segment of order one. -/
def exD : Dims := ⟨1, 1, 1, 0, 1, 1⟩

/-- The dynamics `x' = p`. -/
def exF : Dyn exD ℝ := ⟨fun _ p _ _ => p 0, fun _ p _ _ => ⟨p 0, fun _ => 0⟩⟩

theorem exF_plain : OldDyn exF fun _ _ p => p 0 := fun _ _ _ _ _ => rfl

theorem exF_ad (z : Fin (MU exD) → ℝ) (p : ℕ → ℝ) : OldDynAD exF (fun _ _ p => p 0) z p :=
  fun i _ => ⟨⟨p 0, fun _ => 0⟩, fun _ => rfl, rfl, isGradient_const (p 0) z⟩

/-- **C222.** A case: for `x' = p` on the interval `[0, 2]` the linearisation succeeds at every point and for every matrix of the scheme, but the
first row it returns is not the gradient of the first row of the residual. -/
theorem ode_jacobian_misses_parameters (A : Approx ℝ) (y0 : ℕ → Dual (MU exD) ℝ) (x : Fin exD.VAR → ℝ) (v0 : ℕ → ℝ) :
    ∃ J b o', (Ode.mk0 exD A exF y0).linearized exD (ext x) 0 2 v0 = some (J, b, o') ∧
      ¬ IsGradient (fun z => (Ode.mk0 exD A exF y0).eval exD (ext z) 0 2 v0 v0 0) (fun c => J 0 c) x := by
  obtain ⟨J, b, o', e, h⟩ := ode_jacobian_iff exD (fun _ _ p => p 0) (Ode.mk0 exD A exF y0) rfl exF_plain x (fun k _ => exF_ad _ _) 0 2 v0 v0 v0
  refine ⟨J, b, o', e, fun hg => ?_⟩
  have hv : IsGradient (fun z : Fin exD.VAR → ℝ => (Ode.mk0 exD A exF y0).eval exD (ext z) 0 2 v0 v0 0)
      (fun c => ∑ j ∈ Finset.range exD.VARX, (Ode.mk0 exD A exF y0).diffMat 0 j * (if j = c.val then 1 else 0) - (if 4 = c.val then 1 else 0)) x := by
    have e1 : (fun z : Fin exD.VAR → ℝ => (Ode.mk0 exD A exF y0).eval exD (ext z) 0 2 v0 v0 0)
        = fun z => ∑ j ∈ Finset.range exD.VARX, (Ode.mk0 exD A exF y0).diffMat 0 j * ext z j - ext z 4 := by
      funext z
      have := eval_row exD (fun _ _ p => p 0) (Ode.mk0 exD A exF y0) exF_plain (ext z) 0 2 v0 v0 (k := 0) (i := 0) (by decide) (by decide)
      have e0 : (0 * exD.NX + 0 : ℕ) = 0 := rfl
      rw [e0] at this
      rw [this]
      have e3 : ((2 : ℝ) - 0) / (2 * (exD.S : ℝ)) = 1 := by show ((2 : ℝ) - 0) / (2 * ((1 : ℕ) : ℝ)) = 1; norm_num
      rw [e3, one_mul]
      rfl
    rw [e1]
    refine IsGradient.sub' (IsGradient.sum' _ fun j hj => IsGradient.smul' _ (isGradient_ext ?_ x)) (isGradient_ext (by decide) x)
    have := Finset.mem_range.1 hj
    exact lt_trans this (by decide)
  have h4 := (h 0 (by decide) _ hv).1 hg ⟨4, by decide⟩ (by decide)
  have h5 : ∑ j ∈ Finset.range exD.VARX, (Ode.mk0 exD A exF y0).diffMat 0 j * (if j = 4 then 1 else 0) = 0 := by
    refine Finset.sum_eq_zero fun j hj => ?_
    have : j < 2 := Finset.mem_range.1 hj
    rw [if_neg (by omega), mul_zero]
  simp only [h5, if_true] at h4
  norm_num at h4

/-- The case of the theorems: two segments of order two with `x' = x u`, `ode_jacobian` applies at every point. -/
example (x : Fin (Dims.mk 1 1 0 0 2 2).VAR → ℝ) :
    let d : Dims := ⟨1, 1, 0, 0, 2, 2⟩
    let f : Dyn d ℝ := ⟨fun z _ _ _ => z ⟨0, by decide⟩ * z ⟨1, by decide⟩, fun z _ _ _ => ⟨z ⟨0, by decide⟩ * z ⟨1, by decide⟩,
      fun i => if i.val = 0 then z ⟨1, by decide⟩ else z ⟨0, by decide⟩⟩⟩
    ∃ J b o', (Ode.mk0 d (chebApprox 2) f fun _ => ⟨0, fun _ => 0⟩).linearized d (ext x) 0 1 (fun _ => 0) = some (J, b, o') ∧
      ∀ r < 5, IsGradient (fun z => (Ode.mk0 d (chebApprox 2) f fun _ => ⟨0, fun _ => 0⟩).eval d (ext (withPar d x z)) 0 1 (fun _ => 0) (fun _ => 0) r)
        (fun c => J r c) x := by
  intro d f
  have hA : ∀ k < d.NN, OldDynAD f (fun _ z _ => z ⟨0, by decide⟩ * z ⟨1, by decide⟩) (nodeXU d (ext x) k) (par d (ext x)) := by
    intro k _ i _
    refine ⟨_, fun _ => rfl, rfl, ?_⟩
    generalize nodeXU d (ext x) k = z
    have h0 : HasFDerivAt (fun z : Fin (MU d) → ℝ => z ⟨0, by decide⟩) (ContinuousLinearMap.proj (R := ℝ) (φ := fun _ : Fin (MU d) => ℝ) ⟨0, by decide⟩) z :=
      hasFDerivAt_apply _ z
    have h1 : HasFDerivAt (fun z : Fin (MU d) → ℝ => z ⟨1, by decide⟩) (ContinuousLinearMap.proj (R := ℝ) (φ := fun _ : Fin (MU d) => ℝ) ⟨1, by decide⟩) z :=
      hasFDerivAt_apply _ z
    refine HasFDerivAt.congr_fderiv (h0.mul h1) ?_
    ext w
    rw [gradMap_apply]
    show _ = ∑ j : Fin 2, _
    rw [Fin.sum_univ_two]
    simp
    exact add_comm _ _
  obtain ⟨J, b, o', e, -, -, -, h⟩ := ode_jacobian d (fun _ z _ => z ⟨0, by decide⟩ * z ⟨1, by decide⟩)
    (Ode.mk0 d (chebApprox 2) f fun _ => ⟨0, fun _ => 0⟩) rfl (fun _ _ _ _ _ => rfl) x hA 0 1 (fun _ => 0) (fun _ => 0) (fun _ => 0)
  exact ⟨J, b, o', e, fun r hr => (h r hr).2.1⟩

end PolyMPC.OldColloc
