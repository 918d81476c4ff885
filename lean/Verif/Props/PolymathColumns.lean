import Mathlib.Data.List.Basic
import Verif.Model.CasadiMath
import Verif.Props.CasadiMath

/-!
# C197, C198: the column helpers of `polymath` and the generic interpolator
-/

set_option linter.unusedSectionVars false

namespace PolyMPC.Util
open Polynomial

/-! ### C197 -/

theorem sliceDown_append {α : Type*} (l : List α) (first : α) : sliceDown (first :: l) = l.reverse := by
  unfold sliceDown
  refine List.ext_getElem? fun i => ?_
  have e : ((List.range ((first :: l).length - 1)).filterMap fun k => (first :: l)[(first :: l).length - 1 - k]?) =
      (List.range l.length).map fun k => (first :: l).getD (l.length - k) first := by
    simp only [List.length_cons, Nat.add_sub_cancel]
    rw [← List.filterMap_eq_map]
    refine List.filterMap_congr fun k hk => ?_
    rw [List.mem_range] at hk
    have hlt : l.length - k < (first :: l).length := by simp only [List.length_cons]; omega
    rw [List.getElem?_eq_getElem hlt]
    simp only [Function.comp, List.getD_eq_getElem?_getD, List.getElem?_eq_getElem hlt, Option.getD_some]
  rw [e, List.getElem?_map]
  by_cases hi : i < l.length
  · rw [List.getElem?_range hi, List.getElem?_reverse hi, Option.map_some]
    have h1 : l.length - i = (l.length - 1 - i) + 1 := by omega
    rw [List.getD_eq_getElem?_getD, h1, List.getElem?_cons_succ, List.getElem?_eq_getElem (by omega), Option.getD_some]
  · rw [List.getElem?_eq_none (by simpa using hi), List.getElem?_eq_none (by simpa using hi)]
    rfl

/-- C197. A nonempty list of rows or columns is reversed, an empty one is an error. -/
theorem flipList_eq {α : Type*} (l : List α) : flipList l = if l = [] then none else some l.reverse := by
  cases l with
  | nil => rfl
  | cons a l => simp [flipList, sliceDown_append]

/-- C197. Direction 2 reverses the order of the columns, direction 1 the order within every column, other numbers change nothing. -/
theorem flip_eq {α : Type*} {rows : ℕ} {cols : List (List α)} (hr : ∀ c ∈ cols, c.length = rows) (dim : ℕ) :
    flip rows cols dim =
      if dim = 1 then (if rows = 0 then none else some (cols.map List.reverse))
      else if dim = 2 then (if cols = [] then none else some cols.reverse)
      else some cols := by
  unfold flip
  split_ifs with h1 h2 h3 h4
  · rfl
  · clear h1
    induction cols with
    | nil => rfl
    | cons c cs ih =>
      have hc : c ≠ [] := by
        have := hr c (by simp)
        intro h0; rw [h0] at this; exact h2 this.symm
      rw [List.mapM_cons, flipList_eq, if_neg hc, ih fun d hd => hr d (by simp [hd])]
      rfl
  · rw [flipList_eq, if_pos h4]
  · rw [flipList_eq, if_neg h4]
  · rfl

/-- C197. Applying `flip` twice gives the matrix back. -/
theorem flip_flip {α : Type*} {rows : ℕ} {cols r : List (List α)} (hr : ∀ c ∈ cols, c.length = rows) {dim : ℕ}
    (h : flip rows cols dim = some r) : flip rows r dim = some cols := by
  rw [flip_eq hr] at h
  split_ifs at h with h1 h2 h3 h4
  · obtain rfl := Option.some.inj h
    rw [flip_eq (by
      intro c hc
      obtain ⟨d, hd, rfl⟩ := List.mem_map.mp hc
      rw [List.length_reverse, hr d hd]), if_pos h1, if_neg h2, List.map_map]
    simp
  · obtain rfl := Option.some.inj h
    rw [flip_eq (by simpa using hr), if_neg h1, if_pos h3, if_neg (by simpa using h4), List.reverse_reverse]
  · obtain rfl := Option.some.inj h
    rw [flip_eq hr, if_neg h1, if_neg h3]

example : flip 2 [[1, 2], [3, 4], [5, 6]] 1 = some [[2, 1], [4, 3], [6, 5]] ∧ flip 2 [[1, 2], [3, 4], [5, 6]] 2 = some [[5, 6], [3, 4], [1, 2]] ∧
    flip 2 [[1, 2], [3, 4], [5, 6]] 0 = some [[1, 2], [3, 4], [5, 6]] := ⟨rfl, rfl, rfl⟩

/-- C197. `mat_func` stacks the values at the columns in order. -/
theorem matFunc_eq {α β : Type*} (func : α → List β) (columns : List α) : matFunc func columns = (columns.map func).flatten := by
  suffices h : ∀ (cs : List α) (out : List β), cs.foldl (fun output col => output ++ func col) out = out ++ (cs.map func).flatten by
    exact (h columns []).trans (List.nil_append _)
  intro cs
  induction cs with
  | nil => simp
  | cons c cs ih => intro out; rw [List.foldl_cons, ih]; simp

theorem matDynamicsLoop_eq {α β : Type*} (func : α → β → α) (x : List α) (u : List β) : ∀ (i : ℕ) (xdot : List α), i ≤ x.length →
    matDynamicsLoop func x i u xdot = if i + u.length ≤ x.length then some (xdot ++ List.zipWith func (x.drop i) u) else none := by
  induction u with
  | nil => intro i xdot hi; simp [matDynamicsLoop, hi]
  | cons a us ih =>
    intro i xdot hi
    rw [matDynamicsLoop]
    rcases Nat.lt_or_ge i x.length with hlt | hge
    · rw [List.getElem?_eq_getElem hlt]
      simp only []
      rw [ih (i + 1) _ hlt, List.drop_eq_getElem_cons hlt, List.zipWith_cons_cons]
      simp only [List.length_cons, List.append_assoc, List.singleton_append]
      rw [show i + 1 + us.length = i + (us.length + 1) by omega]
    · rw [List.getElem?_eq_none hge, if_neg (by simp only [List.length_cons]; omega)]

/-- C197. `mat_dynamics` is defined exactly if there is a state and no more inputs than states; it stacks the right-hand sides at the
columns that have an input and then the last state. -/
theorem matDynamics_eq {α β : Type*} (func : α → β → α) (x : List α) (u : List β) (r : List α) :
    matDynamics func x u = some r ↔ u.length ≤ x.length ∧ ∃ h : x ≠ [], r = List.zipWith func x u ++ [x.getLast h] := by
  unfold matDynamics
  rw [matDynamicsLoop_eq func x u 0 [] (Nat.zero_le _)]
  simp only [Nat.zero_add, List.drop_zero, List.nil_append]
  by_cases hx : x = []
  · subst hx
    simp
  · rw [List.getLast?_eq_getLast_of_ne_nil hx]
    by_cases hu : u.length ≤ x.length
    · rw [if_pos hu]
      simp [hx, hu, eq_comm]
    · rw [if_neg hu]
      simp [hu]

/-- One column more than inputs: the pairs, then the last column. One less: undefined. -/
example : matDynamics (fun (x u : ℤ) => x * u) [1, 2, 3] [10, 20] = some [10, 40, 3] ∧
    matDynamics (fun (x u : ℤ) => x * u) [1] [10, 20] = none := ⟨rfl, rfl⟩

/-- C197. For two or more points `cgl_nodes` are the Chebyshev nodes of order `n - 1`, from `1` down to `-1`. -/
theorem cglNodes_eq (N : ℕ) (hN : 1 ≤ N) : cglNodes (N + 1) = some (List.ofFn (Cheb.nodes N)) := by
  rw [cglNodes, if_neg (by omega)]
  congr 1
  rw [List.ofFn_eq_map, ← List.map_coe_finRange_eq_range, List.map_map]
  refine List.map_congr_left fun i _ => ?_
  simp [Cheb.nodes]

theorem cglNodes_decreasing {N : ℕ} (hN : 1 ≤ N) {l : List ℝ} (h : cglNodes (N + 1) = some l) :
    l.length = N + 1 ∧ l.head? = some 1 ∧ l.getLast? = some (-1) ∧ l.Pairwise (· > ·) := by
  rw [cglNodes_eq N hN] at h
  obtain rfl := Option.some.inj h
  refine ⟨by simp, ?_, ?_, ?_⟩
  · simp [List.ofFn_succ, (Cheb.nodes_ends hN).1]
  · rw [List.getLast?_eq_getLast_of_ne_nil (by simp), List.getLast_ofFn_succ]
    simp [(Cheb.nodes_ends hN).2]
  · rw [List.pairwise_ofFn]
    intro i j hij
    exact Cheb.nodes_strictAnti hij

/-- C197. With one point the result is not a number. -/
theorem cglNodes_one : cglNodes 1 = none := by simp [cglNodes]

/-! ### C198 -/

section
variable {K : Type*} [Field K] [DecidableEq K]

/-- C198. With CasADi matrices and two or more distinct nodes every evaluation is the Lagrange interpolant of the values given in the
call, whatever values were given to the constructor and to earlier calls. -/
theorem generic_casadi {n : ℕ} (hn : 2 ≤ n) {nodes : Fin n → K} (hinj : Function.Injective nodes) (v0 : Fin n → K) (calls : List (K × (Fin n → K)))
    (t : K) (values : Fin n → K) :
    ∃ S S1 S2, Generic.init .casadiDM nodes v0 = some S ∧
      calls.foldlM (fun s c => (Generic.eval .casadiDM s c.1 c.2).map Prod.snd) S = some S1 ∧
      Generic.eval .casadiDM S1 t values = some ((Lagrange.interpolate Finset.univ nodes values).eval t, S2) := by
  obtain ⟨B, hB⟩ := Option.isSome_iff_exists.mp ((Splines.lagrangeBasis_defined hn nodes).mpr hinj)
  have hn0 : n ≠ 0 := by omega
  have step : ∀ (c : Fin n → K) (a : K) (w : Fin n → K), Generic.eval .casadiDM ⟨n, B, n, c⟩ a w =
      some ((Lagrange.interpolate Finset.univ nodes w).eval a, ⟨n, B, n, combine w B⟩) := by
    intro c a w
    have hev : (⟨n, B, n, combine w B⟩ : Interpolator K).eval a = some ((Lagrange.interpolate Finset.univ nodes w).eval a) := by
      rw [Interpolator.eval, if_neg hn0]
      exact congrArg some (combine_eval hn hB w a)
    rw [Generic.eval, if_neg (by simp), Interpolator.evalDM, dif_pos rfl]
    show Option.map _ ((⟨n, B, n, combine w B⟩ : Interpolator K).eval a) = _
    rw [hev]; rfl
  have hinit : Generic.init .casadiDM nodes v0 = some ⟨n, B, n, combine v0 B⟩ := by
    rw [Generic.init, if_neg (by simp), Interpolator.init, dif_pos rfl, hB]; rfl
  have hfold : ∀ (cs : List (K × (Fin n → K))) (c : Fin n → K), ∃ c' : Fin n → K,
      cs.foldlM (fun s c => (Generic.eval .casadiDM s c.1 c.2).map Prod.snd) (⟨n, B, n, c⟩ : Interpolator K) = some ⟨n, B, n, c'⟩ := by
    intro cs
    induction cs with
    | nil => exact fun c => ⟨c, rfl⟩
    | cons d ds ih =>
      intro c
      obtain ⟨c', hc'⟩ := ih (combine d.2 B)
      refine ⟨c', ?_⟩
      rw [List.foldlM_cons, step]
      exact hc'
  obtain ⟨c', hc'⟩ := hfold calls (combine v0 B)
  exact ⟨_, _, _, hinit, hc', step c' t values⟩

/-- C198. With an Eigen type and two or more nodes no evaluation is ever reached: a `VectorXd` object cannot be constructed, with
`MatrixXd` the evaluation fails. -/
theorem generic_eigen {n : ℕ} (hn : 2 ≤ n) (nodes v0 : Fin n → K) :
    Generic.init .vectorXd nodes v0 = none ∧
    ∀ S, Generic.init .matrixXd nodes v0 = some S → ∀ {k : ℕ} (t : K) (values : Fin k → K), Generic.eval .matrixXd S t values = none := by
  refine ⟨by rw [Generic.init, if_pos ⟨rfl, by omega⟩], ?_⟩
  intro S hS k t values
  rw [Generic.init, if_neg (by simp), Interpolator.init, dif_pos rfl] at hS
  cases hB : Splines.lagrangeBasis nodes with
  | none => rw [hB] at hS; cases hS
  | some B =>
    rw [hB, Option.map_some, Option.some.injEq] at hS
    rw [Generic.eval, if_pos ⟨rfl, by rw [← hS]; show n ≠ 1; omega⟩]

/-- Non-vacuity: the `MatrixXd` object exists. -/
example : ∃ S, Generic.init .matrixXd (![0, 1] : Fin 2 → ℚ) ![5, 7] = some S := by
  obtain ⟨S, hS, -⟩ := init_eval (by norm_num) (show Function.Injective (![0, 1] : Fin 2 → ℚ) by decide +kernel) ![5, 7]
  exact ⟨S, by rw [Generic.init, if_neg (by simp)]; exact hS⟩

end

end PolyMPC.Util
