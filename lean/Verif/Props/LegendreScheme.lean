import Verif.Model.LegendreScheme
import Verif.Lemmas.LegendreQuad
import Verif.Props.Legendre

/-!
# Legendre-Gauss-Lobatto scheme: nodes (C76), differentiation matrix (C34), quadrature (C74), projection (C75)
-/

namespace PolyMPC.Lgl
open Polynomial PolyMPC.Spec PolyMPC.PolyMath PolyMPC.Cheb

local notation "P" => legendre ℝ

theorem polyEval_eq {n : ℕ} (c : Fin n → ℝ) (t : ℝ) : polyEval c t = (toPoly c).eval t := by
  simp [polyEval, toPoly, eval_finsetSum]

/-- The clean-up loop changes nothing when the threshold is below `2^-N`. -/
theorem lnDot_eq {eps : ℝ} {N : ℕ} (heps : eps < (1 / 2) ^ N) {L : Fin (N + 1) → ℝ} (hL : toPoly L = P N) :
    lnDot eps L = polyDiff L := by
  funext i
  unfold lnDot
  split_ifs with h
  · obtain ⟨hi, hle⟩ := h
    by_contra hne
    have hc : polyDiff L i = ((i.val + 1 : ℕ) : ℝ) * (P N).coeff (i.val + 1) := by
      rw [← hL, toPoly_coeff, dif_pos (by omega : i.val + 1 < N + 1), polyDiff, dif_pos (by omega)]
    have hne' : (P N).coeff (i.val + 1) ≠ 0 := by
      intro h0; apply hne; rw [hc, h0, mul_zero]
    have hl := coeff_large N (i.val + 1) hne'
    rw [hc, abs_mul, Nat.abs_cast] at hle
    have h1 : (1 : ℝ) ≤ ((i.val + 1 : ℕ) : ℝ) := by exact_mod_cast Nat.succ_le_succ (Nat.zero_le _)
    have h2 := abs_nonneg ((P N).coeff (i.val + 1))
    have h3 : |(P N).coeff (i.val + 1)| ≤ eps := le_trans (by nlinarith) hle
    have h4 : (2 : ℝ) ^ N * (1 / 2) ^ N = 1 := by rw [← mul_pow]; norm_num
    have h5 : (0 : ℝ) < 2 ^ N := by positivity
    nlinarith
  · rfl

theorem toPoly_castSucc {n : ℕ} (c : Fin (n + 1) → ℝ) (h : c (Fin.last n) = 0) :
    toPoly (fun i : Fin n => c i.castSucc) = toPoly c := by
  unfold toPoly
  rw [Fin.sum_univ_castSucc, h]; simp

theorem getD_sorted {l s : List ℝ} (hp : l.Perm s) (hs : s.Pairwise (· < ·)) :
    l.insertionSort (· ≤ ·) = s := by
  refine List.Perm.eq_of_pairwise' (r := (· ≤ ·)) ?_ (hs.imp le_of_lt) ((List.perm_insertionSort _ _).trans hp)
  exact List.pairwise_insertionSort _ _

/-- C76. With a correct root finder and a zero threshold below `2^-N` the nodes are the Gauss-Lobatto nodes in ascending order. -/
theorem computeNodes_lgl {eps : ℝ} (h0 : 0 < eps) {N : ℕ} (hN : 1 ≤ N) (heps : eps < (1 / 2) ^ N)
    {rf : (Fin N → ℝ) → Fin (N - 1) → ℝ} (hrf : IsRootFinder rf) :
    ∃ x, computeNodes eps N rf = some x ∧ IsLGL N x := by
  have h1 : eps ≤ 1 := heps.le.trans (pow_le_one₀ (by norm_num) (by norm_num))
  obtain ⟨L, hL, hleg⟩ := computeBasis_legendre h0 h1 hN
  unfold computeNodes
  rw [hL, Option.map_some]
  refine ⟨_, rfl, ?_⟩
  have htop : toPoly (L (Fin.last N)) = P N := by rw [hleg]; simp
  have hq : toPoly (fun i : Fin N => lnDot eps (L (Fin.last N)) i.castSucc) = derivative (P N) := by
    rw [lnDot_eq heps htop, toPoly_castSucc, polyDiff_derivative, htop]
    simp [polyDiff]
  obtain ⟨r, hm, hin, hroots⟩ := derivative_roots hN
  have hr := hrf (fun i : Fin N => lnDot eps (L (Fin.last N)) i.castSucc) ?_ ?_
  rotate_left
  · rw [hq, natDegree_derivative, legendre_natDegree]
  · rw [hq, hroots]; simp
  rw [hq, hroots, Multiset.coe_eq_coe] at hr
  have hsorted : ((-1 : ℝ) :: (List.ofFn r ++ [1])).Pairwise (· < ·) := by
    rw [List.pairwise_cons, List.pairwise_append]
    refine ⟨?_, List.pairwise_ofFn.mpr fun i j hij => hm hij, by simp, ?_⟩
    · intro a ha
      rw [List.mem_append, List.mem_ofFn, List.mem_singleton] at ha
      rcases ha with ⟨i, rfl⟩ | rfl
      · exact (hin i).1
      · norm_num
    · intro a ha b hb
      rw [List.mem_ofFn] at ha
      rw [List.mem_singleton] at hb
      obtain ⟨i, rfl⟩ := ha
      rw [hb]; exact (hin i).2
  have hsort := getD_sorted ((hr.append_right [1]).cons (-1)) hsorted
  simp only [hsort]
  set s := (-1 : ℝ) :: (List.ofFn r ++ [1]) with hsdef
  have hlen : s.length = N + 1 := by simp [hsdef]; omega
  have hget : ∀ i : Fin (N + 1), s.getD i.val 0 = s[i.val]'(by rw [hlen]; exact i.isLt) := fun i => by
    rw [List.getD_eq_getElem?_getD, List.getElem?_eq_getElem (by rw [hlen]; exact i.isLt), Option.getD_some]
  refine ⟨fun i j hij => ?_, ?_, ?_, fun i hi hiN => ?_⟩
  · rw [hget, hget]
    exact List.pairwise_iff_getElem.mp hsorted _ _ _ _ hij
  · rw [hget]; rfl
  · rw [hget]
    simp only [Fin.val_last]
    have : s[N]'(by rw [hlen]; omega) = s.getLast (by simp [hsdef]) := by
      rw [List.getLast_eq_getElem]; congr 1; omega
    rw [this]; simp [hsdef]
  · rw [hget]
    obtain ⟨k, hk⟩ : ∃ k, i.val = k + 1 := ⟨i.val - 1, by omega⟩
    have hk' : k < N - 1 := by omega
    have : s[i.val]'(by rw [hlen]; exact i.isLt) = r ⟨k, hk'⟩ := by
      simp only [hk, hsdef, List.getElem_cons_succ]
      rw [List.getElem_append_left (by simpa using hk')]
      simp
    rw [this]
    have hmem : r ⟨k, hk'⟩ ∈ (derivative (P N)).roots := by
      rw [hroots, Multiset.mem_coe, List.mem_ofFn]; exact ⟨_, rfl⟩
    exact (mem_roots'.mp hmem).2

/-- The constructed object. -/
theorem construct_spec {eps : ℝ} (h0 : 0 < eps) {N : ℕ} (hN : 1 ≤ N) (heps : eps < (1 / 2) ^ N)
    {rf : (Fin N → ℝ) → Fin (N - 1) → ℝ} (hrf : IsRootFinder rf) :
    ∃ S, construct eps N rf = some S ∧ IsLGL N S.nodes ∧ (∀ k, toPoly (S.basis k) = P k.val) ∧
      S.D = diffMatrix S.basis S.nodes ∧ S.weights = quadWeights S.basis S.nodes ∧ S.factors = normFactors N := by
  have h1 : eps ≤ 1 := heps.le.trans (pow_le_one₀ (by norm_num) (by norm_num))
  obtain ⟨L, hL, hleg⟩ := computeBasis_legendre h0 h1 hN
  obtain ⟨x, hx, hl⟩ := computeNodes_lgl h0 hN heps hrf
  refine ⟨⟨L, x, diffMatrix L x, quadWeights L x, normFactors N⟩, ?_, hl, hleg, rfl, rfl, rfl⟩
  rw [construct, hL, hx]; rfl

/-- A correctly set up scheme: the result of the constructor with a correct root finder. -/
structure Built (N : ℕ) (S : Scheme N) : Prop where
  order : 1 ≤ N
  made : ∃ (eps : ℝ) (rf : (Fin N → ℝ) → Fin (N - 1) → ℝ), 0 < eps ∧ eps < (1 / 2) ^ N ∧ IsRootFinder rf ∧ construct eps N rf = some S

section
variable {N : ℕ} {S : Scheme N}

theorem Built.spec (h : Built N S) : IsLGL N S.nodes ∧ (∀ k, toPoly (S.basis k) = P k.val) ∧
    S.D = diffMatrix S.basis S.nodes ∧ S.weights = quadWeights S.basis S.nodes ∧ S.factors = normFactors N := by
  obtain ⟨eps, rf, h0, h1, h2, h3⟩ := h.made
  obtain ⟨S', hS', hs⟩ := construct_spec h0 h.order h1 h2
  rw [h3, Option.some.injEq] at hS'
  rw [hS']; exact hs

/-- C76. The constructor succeeds for every order at least one. -/
theorem exists_built {N : ℕ} (hN : 1 ≤ N) : ∃ S, Built N S := by
  classical
  let rf : (Fin N → ℝ) → Fin (N - 1) → ℝ := fun q =>
    if h : Multiset.card (toPoly q).roots = N - 1 then
      fun i => (toPoly q).roots.toList.get ⟨i.val, by rw [Multiset.length_toList, h]; exact i.isLt⟩
    else fun _ => 0
  have hrf : IsRootFinder rf := by
    intro q _ hc
    have : List.ofFn (rf q) = (toPoly q).roots.toList := by
      refine List.ext_getElem (by simp [hc]) fun n h1 h2 => ?_
      simp only [List.getElem_ofFn, rf, dif_pos hc, List.get_eq_getElem]
    rw [this, Multiset.coe_toList]
  have hpos : (0 : ℝ) < (1 / 2) ^ N := by positivity
  obtain ⟨S, hS, -⟩ := construct_spec (eps := (1 / 2) ^ N / 2) (by positivity) hN (by linarith) hrf
  exact ⟨S, hN, _, rf, by positivity, by linarith, hrf, hS⟩

/-- C76. Nodes of the constructed object. -/
theorem Built.nodes (h : Built N S) : IsLGL N S.nodes := h.spec.1

theorem Built.eval (h : Built N S) (t : ℝ) (k : Fin (N + 1)) : S.eval t k = (P k.val).eval t := by
  rw [Scheme.eval, polyEval_eq, h.spec.2.1]

/-- C34. Off-diagonal entries are those of the exact differentiation matrix. -/
theorem Built.D_off (h : Built N S) {i j : Fin (N + 1)} (hij : i ≠ j) :
    S.D i j = (derivative (_root_.Lagrange.basis Finset.univ S.nodes j)).eval (S.nodes i) := by
  obtain ⟨h1, h2, h3, -⟩ := h.spec
  rw [basis_off h.order h1 hij, h3, diffMatrix, Matrix.of_apply, if_pos hij, polyEval_eq, polyEval_eq, h2]
  rfl

/-- C34. The matrix of the code applied to node values of a polynomial of degree at most `N`: exact in every row except the first and
the last, where `N(N+1)/2` times the boundary value is added respectively subtracted. -/
theorem Built.D_apply (h : Built N S) {p : ℝ[X]} (hp : p.natDegree ≤ N) (i : Fin (N + 1)) :
    ∑ j, S.D i j * p.eval (S.nodes j) = (derivative p).eval (S.nodes i) +
      (if i.val = 0 then N * (N + 1) / 2 * p.eval (-1) else if i.val = N then -(N * (N + 1) / 2 * p.eval 1) else 0) := by
  obtain ⟨h1, h2, h3, -⟩ := h.spec
  have hN := h.order
  have hdeg : p.degree < Fintype.card (Fin (N + 1)) := by
    rw [Fintype.card_fin]
    exact lt_of_le_of_lt degree_le_natDegree (by exact_mod_cast Nat.lt_succ_of_le hp)
  rw [PolyMPC.Lagrange.derivative_eval_eq_sum h1.mono.injective hdeg]
  rw [← Finset.sum_erase_add _ _ (Finset.mem_univ i), ← Finset.sum_erase_add (Finset.univ) (fun j => p.eval (S.nodes j) * _) (Finset.mem_univ i)]
  have hsum : ∑ j ∈ Finset.univ.erase i, S.D i j * p.eval (S.nodes j) =
      ∑ j ∈ Finset.univ.erase i, p.eval (S.nodes j) * (derivative (_root_.Lagrange.basis Finset.univ S.nodes j)).eval (S.nodes i) := by
    refine Finset.sum_congr rfl fun j hj => ?_
    rw [h.D_off (Finset.ne_of_mem_erase hj).symm, mul_comm]
  rw [hsum, basis_diag hN h1, h3, diffMatrix, Matrix.of_apply, if_neg (by simp)]
  by_cases hi0 : i.val = 0
  · rw [if_neg (by omega), if_pos hi0, if_pos hi0, show i = 0 from Fin.ext hi0, h1.first, derivative_P_neg_one, legendre_eval_neg_one]
    have : ((-1 : ℝ)) ^ N ≠ 0 := pow_ne_zero _ (by norm_num)
    push_cast
    field_simp
    ring
  · by_cases hiN : i.val = N
    · rw [if_pos hiN, if_neg hi0, if_pos hiN, show i = Fin.last N from Fin.ext hiN, h1.last, derivative_P_one, legendre_eval_one]
      push_cast
      ring
    · rw [if_neg hiN, if_neg hi0, if_neg hi0, if_neg hiN, h1.interior i (by omega) (by have := i.isLt; omega)]
      simp

/-- C34. The constant one is not differentiated to zero: the first row gives `N(N+1)/2`. -/
theorem Built.D_constant (h : Built N S) : ∑ j, S.D 0 j = N * (N + 1) / 2 ∧ (0 : ℝ) < N * (N + 1) / 2 := by
  have := h.D_apply (p := 1) (by simp) 0
  simp at this
  refine ⟨this, ?_⟩
  have : (0 : ℝ) < N := by exact_mod_cast h.order
  positivity

/-- C34. With the signs of the two corner entries exchanged the matrix is exact. -/
theorem Built.D_corrected (h : Built N S) {p : ℝ[X]} (hp : p.natDegree ≤ N) (i : Fin (N + 1)) :
    ∑ j, (if i = j then -S.D i j else S.D i j) * p.eval (S.nodes j) = (derivative p).eval (S.nodes i) := by
  have hD := h.D_apply hp i
  obtain ⟨h1, h2, h3, -⟩ := h.spec
  have hN := h.order
  have e : ∑ j, (if i = j then -S.D i j else S.D i j) * p.eval (S.nodes j) =
      ∑ j, S.D i j * p.eval (S.nodes j) - 2 * S.D i i * p.eval (S.nodes i) := by
    rw [eq_sub_iff_add_eq, ← Finset.sum_erase_add _ _ (Finset.mem_univ i),
      ← Finset.sum_erase_add (Finset.univ) (fun j => S.D i j * _) (Finset.mem_univ i), if_pos rfl]
    have : ∑ j ∈ Finset.univ.erase i, (if i = j then -S.D i j else S.D i j) * p.eval (S.nodes j) =
        ∑ j ∈ Finset.univ.erase i, S.D i j * p.eval (S.nodes j) :=
      Finset.sum_congr rfl fun j hj => by rw [if_neg (Finset.ne_of_mem_erase hj).symm]
    rw [this]; ring
  have hii : S.D i i = if i.val = N then -(((N + 1) * N : ℕ) : ℝ) / 4 else if i.val = 0 then (((N + 1) * N : ℕ) : ℝ) / 4 else 0 := by
    rw [h3, diffMatrix, Matrix.of_apply, if_neg (by simp)]
  rw [e, hD, hii]
  by_cases hi0 : i.val = 0
  · have hiN : ¬ i.val = N := by omega
    simp only [if_pos hi0, if_neg hiN]
    rw [show i = 0 from Fin.ext hi0, h1.first]
    push_cast; ring
  · by_cases hiN : i.val = N
    · simp only [if_neg hi0, if_pos hiN]
      rw [show i = Fin.last N from Fin.ext hiN, h1.last]
      push_cast; ring
    · simp only [if_neg hi0, if_neg hiN]; ring

/-! ### C74: quadrature -/

theorem Built.weights_eq (h : Built N S) (i : Fin (N + 1)) : S.weights i = 2 / (N * (N + 1)) / (P N).eval (S.nodes i) ^ 2 := by
  obtain ⟨-, h2, -, h4, -⟩ := h.spec
  rw [h4, quadWeights, polyEval_eq, h2]
  push_cast; rfl

/-- C74. The weights integrate every polynomial of degree at most `2N-1` exactly over `[-1,1]`. -/
theorem Built.weights_exact (h : Built N S) {p : ℝ[X]} (hp : p.natDegree ≤ 2 * N - 1) :
    ∑ i, p.eval (S.nodes i) * S.weights i = ∫ t in (-1 : ℝ)..1, p.eval t := by
  rw [← I_apply, ← lgl_exact h.order h.nodes hp]
  exact Finset.sum_congr rfl fun i _ => by rw [h.weights_eq]

/-- C74. `integrate` is exact for polynomials of degree at most `2N-1` on every interval. -/
theorem Built.integrate_exact (h : Built N S) {p : ℝ[X]} (hp : p.natDegree ≤ 2 * N - 1) (t0 tf : ℝ) :
    S.integrate (fun t => p.eval t) t0 tf = ∫ t in t0..tf, p.eval t := by
  have hq : (p.comp (C ((tf - t0) / 2) * X + C ((tf + t0) / 2))).natDegree ≤ 2 * N - 1 := by
    refine natDegree_comp_le.trans ?_
    refine le_trans (Nat.mul_le_mul hp (natDegree_linear_le)) (by omega)
  have h := h.weights_exact hq
  simp only [eval_comp, eval_add, eval_mul, eval_C, eval_X] at h
  rw [Scheme.integrate, h, ← smul_eq_mul, intervalIntegral.smul_integral_comp_mul_add (fun t => p.eval t)]
  congr 1 <;> ring

/-- C74. The weights are positive and sum to two. -/
theorem Built.weights_pos (h : Built N S) (i : Fin (N + 1)) : 0 < S.weights i := by
  rw [h.weights_eq]
  have hN : (0 : ℝ) < N := by exact_mod_cast h.order
  have := P_node_ne_zero h.order h.nodes i
  positivity

theorem Built.weights_sum (h : Built N S) : ∑ i, S.weights i = 2 := by
  have := h.weights_exact (p := 1) (by simp)
  simp at this
  rw [this]; norm_num

/-- C74. Degree `2N` is not integrated exactly. -/
theorem Built.weights_sharp (h : Built N S) :
    ∑ i, (P N * P N).eval (S.nodes i) * S.weights i ≠ ∫ t in (-1 : ℝ)..1, (P N * P N).eval t := by
  rw [← I_apply, I_norm]
  have hN : (0 : ℝ) < N := by exact_mod_cast h.order
  have : ∀ i, (P N * P N).eval (S.nodes i) * S.weights i = 2 / (N * (N + 1)) := by
    intro i
    have := P_node_ne_zero h.order h.nodes i
    rw [h.weights_eq, eval_mul]; field_simp
  rw [Finset.sum_congr rfl fun i _ => this i]
  simp only [Finset.sum_const, Finset.card_univ, Fintype.card_fin, nsmul_eq_mul]
  push_cast
  have h1 : (N : ℝ) * (N + 1) ≠ 0 := by positivity
  have h2 : (2 * (N : ℝ) + 1) ≠ 0 := by positivity
  rw [Ne, mul_div_assoc', div_eq_div_iff h1 h2]
  intro hc
  nlinarith

/-! ### C75: projection -/

/-- Discrete orthogonality of the basis on the nodes. -/
theorem Built.inner (h : Built N S) (k n : Fin (N + 1)) :
    S.factors n * ∑ i, (P k.val).eval (S.nodes i) * (P n.val).eval (S.nodes i) * S.weights i = if k = n then 1 else 0 := by
  obtain ⟨-, -, -, -, h5⟩ := h.spec
  have hN : (0 : ℝ) < N := by exact_mod_cast h.order
  have hk : k.val ≤ N := Nat.lt_succ_iff.mp k.isLt
  have hn : n.val ≤ N := Nat.lt_succ_iff.mp n.isLt
  rw [h5, normFactors]
  by_cases hkn : k.val = N ∧ n.val = N
  · rw [if_pos (Fin.ext (by omega)), if_pos hkn.2, hkn.1, hkn.2]
    have : ∀ i, (P N).eval (S.nodes i) * (P N).eval (S.nodes i) * S.weights i = 2 / (N * (N + 1)) := by
      intro i
      have := P_node_ne_zero h.order h.nodes i
      rw [h.weights_eq]; field_simp
    rw [Finset.sum_congr rfl fun i _ => this i]
    simp only [Finset.sum_const, Finset.card_univ, Fintype.card_fin, nsmul_eq_mul]
    push_cast
    field_simp
  · have hdeg : (P k.val * P n.val).natDegree ≤ 2 * N - 1 := by
      refine natDegree_mul_le.trans ?_
      rw [legendre_natDegree, legendre_natDegree]; omega
    have hq := h.weights_exact hdeg
    simp only [eval_mul] at hq
    rw [hq]
    have hI : (∫ t in (-1 : ℝ)..1, (P k.val).eval t * (P n.val).eval t) = integralL (-1) 1 (P k.val * P n.val) := by
      rw [I_apply]; simp only [eval_mul]
    rw [hI]
    by_cases hkn' : k = n
    · rw [if_pos hkn', hkn', I_norm, if_neg (by rw [hkn'] at hkn; omega)]
      have : (2 * (n.val : ℝ) + 1) ≠ 0 := by positivity
      field_simp
    · rw [if_neg hkn', I_orth (fun h => hkn' (Fin.ext h)), mul_zero]

/-- Value of the expansion at a point of the reference interval, as a linear functional. -/
noncomputable def expandL (S : Scheme N) (x : ℝ) : ℝ[X] →ₗ[ℝ] ℝ where
  toFun p := ∑ n : Fin (N + 1), (S.factors n * ∑ i, p.eval (S.nodes i) * (P n.val).eval (S.nodes i) * S.weights i) * (P n.val).eval x
  map_add' p q := by
    rw [← Finset.sum_add_distrib]
    refine Finset.sum_congr rfl fun n _ => ?_
    rw [← add_mul, ← mul_add, ← Finset.sum_add_distrib]
    congr 2
    exact Finset.sum_congr rfl fun i _ => by rw [eval_add]; ring
  map_smul' c p := by
    rw [RingHom.id_apply, smul_eq_mul, Finset.mul_sum]
    refine Finset.sum_congr rfl fun n _ => ?_
    have : ∑ i, (c • p).eval (S.nodes i) * (P n.val).eval (S.nodes i) * S.weights i =
        c * ∑ i, p.eval (S.nodes i) * (P n.val).eval (S.nodes i) * S.weights i := by
      rw [Finset.mul_sum]
      exact Finset.sum_congr rfl fun i _ => by rw [eval_smul, smul_eq_mul]; ring
    rw [this]; ring

/-- C75. Projecting a polynomial of degree at most `N` on `[a,b]` and evaluating the projection anywhere returns the polynomial. -/
theorem Built.projection_reproduces (h : Built N S) {p : ℝ[X]} (hp : p.natDegree ≤ N) {a b : ℝ} (hab : a ≠ b) (t : ℝ) :
    projEval S.toBasis (project S.toBasis (fun s => p.eval s) a b) a b t = p.eval t := by
  have hs : (b - a) / 2 ≠ 0 := div_ne_zero (sub_ne_zero.mpr hab.symm) two_ne_zero
  set x := (t - (b + a) / 2) / ((b - a) / 2) with hx
  have hq : (p.comp (C ((b - a) / 2) * X + C ((b + a) / 2))).natDegree ≤ N := by
    refine natDegree_comp_le.trans ?_
    refine le_trans (Nat.mul_le_mul hp (natDegree_linear_le)) (by omega)
  have hz := graded_ext (legendre_natDegree (K := ℝ)) P_ne_zero (expandL S x - evalL x) N ?_ _ hq
  · have h2 := sub_eq_zero.mp hz
    have h3 : projEval S.toBasis (project S.toBasis (fun s => p.eval s) a b) a b t =
        expandL S x (p.comp (C ((b - a) / 2) * X + C ((b + a) / 2))) := by
      show ∑ n : Fin (N + 1), _ = ∑ n : Fin (N + 1), _
      refine Finset.sum_congr rfl fun n _ => ?_
      simp only [project, Scheme.toBasis, n.isLt, dif_pos, h.eval, eval_comp, eval_add, eval_mul, eval_C, eval_X]
      rw [hx]
    rw [h3, h2]
    show Polynomial.eval x (p.comp _) = _
    simp only [eval_comp, eval_add, eval_mul, eval_C, eval_X]
    congr 1
    rw [hx, mul_div_cancel₀ _ hs]; ring
  · intro k hk
    rw [LinearMap.sub_apply, sub_eq_zero]
    show ∑ n : Fin (N + 1), _ = (P k).eval x
    rw [Finset.sum_eq_single (⟨k, by omega⟩ : Fin (N + 1))]
    · rw [h.inner ⟨k, by omega⟩, if_pos rfl, one_mul]
    · intro n _ hn
      rw [h.inner ⟨k, by omega⟩, if_neg (Ne.symm hn), zero_mul]
    · intro hn; exact absurd (Finset.mem_univ _) hn

end

/-! Non-vacuity: order two. -/

/-- The constructed scheme of order two has nodes `-1, 0, 1`. -/
example {S : Scheme 2} (h : Built 2 S) : S.nodes 0 = -1 ∧ S.nodes 1 = 0 ∧ S.nodes 2 = 1 ∧ S.D 0 0 = 3 / 2 := by
  refine ⟨h.nodes.first, ?_, h.nodes.last, ?_⟩
  · have h1 := h.nodes.interior 1 (by norm_num) (by norm_num)
    have h2 := bonnet (K := ℝ) 0
    rw [legendre_zero, legendre_one] at h2
    have h3 := congrArg (fun q => (derivative q).eval (S.nodes 1)) h2
    simp [h1] at h3
    rcases h3 with h3 | h3
    · norm_num at h3
    · exact h3
  · obtain ⟨-, -, h3, -⟩ := h.spec
    rw [h3]; simp [diffMatrix]; norm_num

example : ∃ S : Scheme 2, Built 2 S ∧ S.integrate (fun t => (X ^ 3 + X ^ 2 : ℝ[X]).eval t) 0 1 = 7 / 12 := by
  obtain ⟨S, hS⟩ := exists_built (N := 2) (by norm_num)
  refine ⟨S, hS, ?_⟩
  rw [hS.integrate_exact]
  · simp only [eval_add, eval_pow, eval_X]
    rw [intervalIntegral.integral_add (Continuous.intervalIntegrable (by fun_prop) _ _)
      (Continuous.intervalIntegrable (by fun_prop) _ _), integral_pow, integral_pow]
    norm_num
  · refine (natDegree_add_le _ _).trans ?_
    simp

end PolyMPC.Lgl
