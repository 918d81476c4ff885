import Verif.Model.BfgsRounded
import Verif.Lemmas.Rounding
import Verif.Props.QuasiNewton

/-!
# Property C240: the damped BFGS update in floating-point arithmetic

* symmetry is kept exactly;
* every entry is within a few roundings of the formula of the update;
* positive definiteness, which C17 proves without rounding, can be lost, in `double` and from the identity matrix.
-/

set_option linter.unusedSectionVars false

namespace PolyMPC.BfgsR
open Matrix PolyMPC.Rounding

variable {n : ℕ} {ar : Arith} {eps : ℝ}

/-! ## Without rounding this is the model of C17 -/

theorem bfgsUpdate_exact (sq : ℝ → ℝ) (eps : ℝ) (B : Matrix (Fin n) (Fin n) ℝ) (s y : Fin n → ℝ) :
    bfgsUpdate (Arith.exact sq) eps B s y = QuasiNewton.bfgsUpdate eps B s y := by
  have hd : ∀ Bs : Fin n → ℝ, dampedPair (Arith.exact sq) Bs s y = QuasiNewton.dampedPair Bs s y := by
    intro Bs
    by_cases h : s ⬝ᵥ y < 2 / 10 * (s ⬝ᵥ Bs)
    · by_cases h0 : s ⬝ᵥ Bs - s ⬝ᵥ y = 0
      · have e1 : dampedPair (Arith.exact sq) Bs s y = none := (if_pos h).trans (if_pos h0)
        have e2 : QuasiNewton.dampedPair Bs s y = none := by
          refine (if_pos h).trans ?_
          rw [QuasiNewton.divide, if_pos h0]; rfl
        rw [e1, e2]
      · refine ((if_pos h).trans (if_neg h0)).trans ((if_pos h).trans ?_).symm
        rw [QuasiNewton.divide, if_neg h0]; rfl
    · exact (if_neg h).trans (if_neg h).symm
  have hv : mulVec (Arith.exact sq) B s = B *ᵥ s := rfl
  unfold bfgsUpdate QuasiNewton.bfgsUpdate
  simp only [hv, hd]
  cases QuasiNewton.dampedPair (B *ᵥ s) s y with
  | none => rfl
  | some p =>
    obtain ⟨r, sr⟩ := p
    simp only [Option.bind_some]
    by_cases h1 : sr < eps
    · rw [if_pos h1, if_pos h1]
    · rw [if_neg h1, if_neg h1]
      have h2 : (Arith.exact sq).dot n s (B *ᵥ s) = s ⬝ᵥ B *ᵥ s := rfl
      rw [h2]
      by_cases h3 : s ⬝ᵥ B *ᵥ s = 0 ∨ sr = 0
      · rw [if_pos h3, if_pos h3]
      · rw [if_neg h3, if_neg h3]
        congr 1
        ext i j
        simp only [Arith.exact, Matrix.add_apply, Matrix.of_apply, QuasiNewton.outer, neg_mul]

/-! ## What an update does -/

/-- An update leaves the matrix alone or replaces every entry by the rounded formula, with vectors `v` and `r` and numbers
`c` and `d` that are the same for all entries. -/
theorem bfgs_cases {B B' : Matrix (Fin n) (Fin n) ℝ} {s y : Fin n → ℝ} (h : bfgsUpdate ar eps B s y = some B') :
    B' = B ∨ ∃ (r : Fin n → ℝ) (d : ℝ), dampedPair ar (mulVec ar B s) s y = some (r, d) ∧ eps ≤ d ∧ d ≠ 0 ∧
      ar.dot n s (mulVec ar B s) ≠ 0 ∧
      ∀ i j, B' i j = ar.add (ar.add (B i j) (ar.div (ar.mul (-mulVec ar B s i) (mulVec ar B s j))
        (ar.dot n s (mulVec ar B s)))) (ar.div (ar.mul (r i) (r j)) d) := by
  unfold bfgsUpdate at h
  simp only at h
  cases hp : dampedPair ar (mulVec ar B s) s y with
  | none => rw [hp] at h; cases h
  | some p =>
    obtain ⟨r, d⟩ := p
    rw [hp] at h
    simp only [Option.bind_some] at h
    by_cases h1 : d < eps
    · rw [if_pos h1] at h; cases h; exact Or.inl rfl
    · rw [if_neg h1] at h
      by_cases h2 : ar.dot n s (mulVec ar B s) = 0 ∨ d = 0
      · rw [if_pos h2] at h; cases h
      · rw [if_neg h2] at h
        cases h
        exact Or.inr ⟨r, d, rfl, not_lt.mp h1, fun e => h2 (Or.inr e), fun e => h2 (Or.inl e), fun _ _ => rfl⟩

/-- C240. Multiplication that commutes, also with the sign moved, keeps the matrix exactly symmetric, through any history
of updates. Nothing else is assumed of the arithmetic. -/
theorem bfgs_symm (hm : ∀ a b, ar.mul a b = ar.mul b a) (hn : ∀ a b, ar.mul (-a) b = ar.mul (-b) a)
    {B B' : Matrix (Fin n) (Fin n) ℝ} (hB : Bᵀ = B) (l : List ((Fin n → ℝ) × (Fin n → ℝ)))
    (h : bfgsRun ar eps B l = some B') : B'ᵀ = B' := by
  induction l generalizing B with
  | nil => cases h; exact hB
  | cons p l ih =>
    obtain ⟨s, y⟩ := p
    simp only [bfgsRun] at h
    cases h1 : bfgsUpdate ar eps B s y with
    | none => rw [h1] at h; cases h
    | some C =>
      rw [h1] at h
      refine ih ?_ h
      rcases bfgs_cases h1 with rfl | ⟨r, d, _, _, _, _, he⟩
      · exact hB
      · ext i j
        have hij : B j i = B i j := congrFun (congrFun hB i) j
        rw [Matrix.transpose_apply, he, he, hij, hm (r j), hn (mulVec ar B s j)]

/-- C240. With operations accurate to `ε`, every entry of the updated matrix differs from the formula of the update, for
the computed vectors `B s` and `r`, by at most four roundings of the sizes of its terms. -/
theorem bfgs_entry_error {ε : ℝ} {g : ℕ → ℝ} (hu : Accurate ar ε g) {B B' : Matrix (Fin n) (Fin n) ℝ}
    {s y : Fin n → ℝ} (h : bfgsUpdate ar eps B s y = some B') :
    B' = B ∨ ∃ (r : Fin n → ℝ) (d : ℝ), dampedPair ar (mulVec ar B s) s y = some (r, d) ∧ eps ≤ d ∧
      ∀ i j, |B' i j - (B i j - mulVec ar B s i * mulVec ar B s j / ar.dot n s (mulVec ar B s) + r i * r j / d)| ≤
        ((1 + ε) ^ 4 - 1) * (|B i j| + |mulVec ar B s i * mulVec ar B s j / ar.dot n s (mulVec ar B s)|
          + |r i * r j / d|) := by
  rcases bfgs_cases h with rfl | ⟨r, d, hp, hd, hd0, hc0, he⟩
  · exact Or.inl rfl
  refine Or.inr ⟨r, d, hp, hd, fun i j => ?_⟩
  have quot : ∀ a b c : ℝ, c ≠ 0 → Near ((1 + ε) ^ 2) |a * b / c| (ar.div (ar.mul a b) c) (a * b / c) := by
    intro a b c hc
    have h1 : Near (1 + ε) |a * b / c| (ar.mul a b / c) (a * b / c) := by
      refine ⟨hu.one_le, ?_, le_rfl⟩
      rw [← sub_div, abs_div, abs_div]
      have := hu.mul a b
      have hpos : 0 < |c| := abs_pos.mpr hc
      rw [div_le_iff₀ hpos]
      calc |ar.mul a b - a * b| ≤ ε * |a * b| := this
        _ = (1 + ε - 1) * (|a * b| / |c|) * |c| := by field_simp; ring
    have h2 := h1.round hu.one_le (r := ar.div (ar.mul a b) c) (T := |ar.mul a b / c|)
      (by have := hu.div (ar.mul a b) c hc; simpa using this) h1.abs_le
    rw [pow_two]
    exact h2
  set v := mulVec ar B s
  set c := ar.dot n s v
  have q1 := quot (-v i) (v j) c hc0
  have q2 := quot (r i) (r j) d hd0
  have e0 : Near ((1 + ε) ^ 2) |B i j| (B i j) (B i j) := (Near.refl _).mono hu.one_le_sq
  have s1 := hu.near_add e0 q1
  have hle : (1 + ε) ^ 2 ≤ (1 + ε) * (1 + ε) ^ 2 :=
    le_mul_of_one_le_left (zero_le_one.trans hu.one_le_sq) hu.one_le
  have s2 := hu.near_add s1 (q2.mono hle)
  have := s2.2.1
  rw [he i j]
  have e1 : (1 + ε) * ((1 + ε) * (1 + ε) ^ 2) = (1 + ε) ^ 4 := by ring
  rw [e1] at this
  have e2 : |(-v i) * v j / c| = |v i * v j / c| := by rw [neg_mul, neg_div, abs_neg]
  have e3 : B i j + (-v i) * v j / c + r i * r j / d = B i j - v i * v j / c + r i * r j / d := by ring
  rw [e2, e3] at this
  exact this

/-! ## Loss of positive definiteness -/

/-- `2^28 + 2`; its square `2^56 + 2^30 + 4` is rounded down to a multiple of 16. -/
noncomputable def bigY : ℝ := 2 ^ 28 + 2

theorem double_facts : roundBits 52 0 = 0 ∧ roundBits 52 1 = 1 ∧ roundBits 52 (-1) = -1 ∧ roundBits 52 bigY = bigY ∧
    roundBits 52 (bigY * bigY) = 2 ^ 56 + 2 ^ 30 ∧ roundBits 52 (2 ^ 56 + 2 ^ 30) = 2 ^ 56 + 2 ^ 30 ∧
    roundBits 52 (1 + (2 ^ 56 + 2 ^ 30)) = 2 ^ 56 + 2 ^ 30 := by
  refine ⟨by simp [roundBits], ?_, ?_, ?_, ?_, ?_, ?_⟩
  · have := roundBits_eq 52 (t := 1) 0 (2 ^ 52) (by norm_num) (by norm_num) (by norm_num)
    rw [this]; norm_num
  · have := roundBits_eq 52 (t := -1) 0 (-2 ^ 52) (by norm_num) (by norm_num) (by norm_num)
    rw [this]; norm_num
  · have := roundBits_eq 52 (t := bigY) 28 (2 ^ 52 + 2 ^ 25) (by norm_num [bigY]) (by norm_num [bigY])
      (by norm_num [bigY])
    rw [this]; norm_num [bigY]
  · have := roundBits_eq 52 (t := bigY * bigY) 56 (2 ^ 52 + 2 ^ 26) (by norm_num [bigY]) (by norm_num [bigY])
      (by norm_num [bigY])
    rw [this]; norm_num
  · have := roundBits_eq 52 (t := 2 ^ 56 + 2 ^ 30) 56 (2 ^ 52 + 2 ^ 26) (by norm_num) (by norm_num) (by norm_num)
    rw [this]; norm_num
  · have := roundBits_eq 52 (t := 1 + (2 ^ 56 + 2 ^ 30)) 56 (2 ^ 52 + 2 ^ 26) (by norm_num) (by norm_num)
      (by norm_num)
    rw [this]; norm_num

/-- The update of the identity with the step `(1, 0)` and the gradient change `(1, 2^28 + 2)`, for an arithmetic that
rounds sums, products and quotients to `double`. -/
theorem bfgs_double {ar : Arith} (hadd : ∀ a b, ar.add a b = roundBits 52 (a + b))
    (hmul : ∀ a b, ar.mul a b = roundBits 52 (a * b)) (hdiv : ∀ a b, ar.div a b = roundBits 52 (a / b))
    (hlit : ∀ a, ar.lit a = roundBits 52 a)
    (hdot : ∀ a b : Fin 2 → ℝ, a 1 * b 1 = 0 → (a 0 * b 0 = 0 ∨ a 0 * b 0 = 1) → ar.dot 2 a b = a 0 * b 0)
    (he : eps ≤ 1) :
    bfgsUpdate ar eps 1 ![1, 0] ![1, bigY] = some !![1, bigY; bigY, 2 ^ 56 + 2 ^ 30] := by
  obtain ⟨f0, f1, fm, fy, fq, fq', fs⟩ := double_facts
  have hv : mulVec ar 1 ![1, 0] = ![1, 0] := by
    funext i
    fin_cases i
    · show ar.dot 2 ((1 : Matrix (Fin 2) (Fin 2) ℝ) 0) ![1, 0] = 1
      rw [hdot] <;> simp
    · show ar.dot 2 ((1 : Matrix (Fin 2) (Fin 2) ℝ) 1) ![1, 0] = 0
      rw [hdot] <;> simp
  have hs : ar.dot 2 ![1, 0] ![1, 0] = 1 := by rw [hdot] <;> simp
  have hy : ar.dot 2 ![1, 0] ![1, bigY] = 1 := by rw [hdot] <;> simp
  have hl : ¬ (1 : ℝ) < ar.mul (ar.lit (2 / 10)) 1 := by
    rw [hmul, hlit, mul_one, not_lt]
    have h1 := (abs_le.mp (roundBits_error 52 (2 / 10))).2
    have h2 := (abs_le.mp (roundBits_error 52 (roundBits 52 (2 / 10)))).2
    have h3 := (abs_le.mp (roundBits_error 52 (2 / 10))).1
    rw [abs_of_pos (by norm_num : (0 : ℝ) < 2 / 10)] at h1 h3
    have h4 : 0 < roundBits 52 (2 / 10) := by norm_num at h3; linarith
    rw [abs_of_pos h4] at h2
    norm_num at h1 h2
    linarith
  have hp : dampedPair ar ![1, 0] ![1, 0] ![1, bigY] = some (![1, bigY], 1) := by
    unfold dampedPair
    simp only [hs, hy]
    rw [if_neg hl]
  unfold bfgsUpdate
  simp only [hv, hp, hs, Option.bind_some]
  rw [if_neg (not_lt.mpr he), if_neg (by norm_num)]
  congr 1
  ext i j
  simp only [hadd, hmul, hdiv]
  fin_cases i <;> fin_cases j <;> simp [f0, f1, fm, fy, fq, fq', fs]

/-- The updated matrix is symmetric and not positive semidefinite. -/
theorem bfgs_double_indefinite :
    ![bigY, -1] ⬝ᵥ (!![1, bigY; bigY, 2 ^ 56 + 2 ^ 30] : Matrix (Fin 2) (Fin 2) ℝ) *ᵥ ![bigY, -1] = -4 := by
  simp [dotProduct, Matrix.mulVec, Fin.sum_univ_two, bigY]
  norm_num

/-- C240. In `double`, with or without contraction of products and sums, one update can turn the identity matrix into an
indefinite matrix, although without rounding the same update gives a positive definite one. -/
theorem bfgs_loses_spd (sq : ℝ → ℝ) (he : 0 < eps) (he1 : eps ≤ 1) {ar : Arith}
    (har : ar = Arith.plain (roundBits 52) sq ∨ ar = Arith.contracted (roundBits 52) sq) :
    ∃ (s y : Fin 2 → ℝ) (B' : Matrix (Fin 2) (Fin 2) ℝ), bfgsUpdate ar eps 1 s y = some B' ∧ B'ᵀ = B' ∧
      (∃ x, x ⬝ᵥ B' *ᵥ x < 0) ∧
      ∃ B'', bfgsUpdate (Arith.exact sq) eps 1 s y = some B'' ∧ QuasiNewton.SPD B'' := by
  obtain ⟨f0, f1, _⟩ := double_facts
  refine ⟨![1, 0], ![1, bigY], !![1, bigY; bigY, 2 ^ 56 + 2 ^ 30], ?_, ?_, ⟨![bigY, -1], ?_⟩, ?_⟩
  · rcases har with rfl | rfl
    · refine bfgs_double (fun _ _ => rfl) (fun _ _ => rfl) (fun _ _ => rfl) (fun _ => rfl) ?_ he1
      intro a b h1 h0
      simp only [Arith.plain, Fin.foldl_succ, Fin.foldl_zero]
      have h1' : a (Fin.succ 0) * b (Fin.succ 0) = 0 := h1
      rcases h0 with h0 | h0 <;> simp [h0, h1, f0, f1]
    · refine bfgs_double (fun _ _ => rfl) (fun _ _ => rfl) (fun _ _ => rfl) (fun _ => rfl) ?_ he1
      intro a b h1 h0
      simp only [Arith.contracted, Fin.foldl_succ, Fin.foldl_zero]
      rcases h0 with h0 | h0 <;> simp [h0, h1, f0, f1]
  · ext i j
    fin_cases i <;> fin_cases j <;> rfl
  · rw [bfgs_double_indefinite]; norm_num
  · rw [bfgsUpdate_exact]
    exact QuasiNewton.bfgs_keeps_spd he QuasiNewton.spd_one _ _

/-- The hypotheses of `bfgs_symm` and `bfgs_entry_error` are met by `double` arithmetic. -/
example (sq : ℝ → ℝ) : (∀ a b, (Arith.plain (roundBits 52) sq).mul a b = (Arith.plain (roundBits 52) sq).mul b a) ∧
    (∀ a b, (Arith.plain (roundBits 52) sq).mul (-a) b = (Arith.plain (roundBits 52) sq).mul (-b) a) := by
  constructor
  · intro a b; show roundBits 52 (a * b) = roundBits 52 (b * a); rw [mul_comm]
  · intro a b; show roundBits 52 (-a * b) = roundBits 52 (-b * a); congr 1; ring

end PolyMPC.BfgsR
