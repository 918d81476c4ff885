import Verif.Model.OdeOptions
import Mathlib.Tactic.NormNum

/-!
# C238: the options of `ODESolver`

`ODESolver` accepts the options `tol`, `max_iter` and `tf` and returns them from `getParams`, but none of them has an effect: the integrator is created from constants.
-/

set_option linter.unusedSectionVars false

namespace PolyMPC.SolverOpts
open Ocp

variable {K V U P : Type} [Field K] [AddCommGroup V] [Module K V]

/-- The last value that a list of assignments gives to a name. -/
def lastOf (s : String) (l : List (String × Val)) : Option Val := ((l.filter fun e => e.1 = s).getLast?).map Prod.snd

/-- The names of the options. -/
def odeNames : List String := ["method", "tf", "max_iter", "tol"]

theorem odeUpdate_get (l : List (String × Val)) (D : Dict) (s : String) :
    odeUpdate D l s = if (D s).isSome then (lastOf s l).or (D s) else none := by
  unfold odeUpdate lastOf
  induction l using List.reverseRecOn with
  | nil => cases h : D s <;> simp [h]
  | append_singleton l e ih =>
    rw [List.foldl_append, List.foldl_cons, List.foldl_nil, List.filter_append]
    generalize List.foldl (fun D e => if (D e.1).isSome then put D e.1 e.2 else D) D l = E at ih
    by_cases he : e.1 = s
    · rw [List.filter_cons_of_pos (by simpa using he), List.filter_nil, List.getLast?_append]
      subst he
      cases hD : D e.1 with
      | none => rw [hD] at ih; simp only [Option.isSome_none] at ih; simp [ih]
      | some v =>
        rw [hD] at ih
        have : (E e.1).isSome = true := by
          rw [ih]
          simp
        simp [this, put]
    · rw [List.filter_cons_of_neg (by simpa using he), List.filter_nil, List.append_nil, ← ih]
      by_cases hE : (E e.1).isSome = true
      · rw [if_pos hE]
        exact if_neg fun h => he h.symm
      · rw [if_neg hE]

/-- **C238.** `getParams` after a session: the last value given for each of the four names, or its default; other names are not kept. -/
theorem ode_getParams (l : List (String × Val)) (s : String) :
    odeUpdate odeDefaults l s = if s ∈ odeNames then (lastOf s l).or (odeDefaults s) else none := by
  rw [odeUpdate_get]
  have : (odeDefaults s).isSome = true ↔ s ∈ odeNames := by
    unfold odeDefaults putAll odeNames
    simp only [List.foldl_cons, List.foldl_nil, put, empty, List.mem_cons, List.not_mem_nil, or_false]
    by_cases h1 : s = "tol"
    · simp [h1]
    by_cases h2 : s = "max_iter"
    · simp [h2]
    by_cases h3 : s = "tf"
    · simp [h3]
    by_cases h4 : s = "method"
    · simp [h4]
    simp [h1, h2, h3, h4]
  by_cases h : s ∈ odeNames
  · rw [if_pos h, if_pos (this.2 h)]
  · rw [if_neg h, if_neg fun h' => h (this.1 h')]

theorem odeUpdate_append (D : Dict) (l l' : List (String × Val)) : odeUpdate (odeUpdate D l) l' = odeUpdate D (l ++ l') := by
  unfold odeUpdate
  rw [List.foldl_append]

/-- An object that was constructed with `user` and updated with the lists `ls`. -/
def odeSession (rhs : V → U → P → V) (user : List (String × Val)) (ls : List (List (String × Val))) : Option (Ode V U P) := (Ode.make rhs user).map fun S => ls.foldl Ode.update S

theorem session_shape {rhs : V → U → P → V} {user : List (String × Val)} {ls : List (List (String × Val))} {S : Ode V U P} (h : odeSession rhs user ls = some S) :
    S.rhs = rhs ∧ S.params = odeUpdate odeDefaults (user ++ ls.flatten) ∧ ∃ m, ((odeUpdate odeDefaults user) "method").bind Val.toInt = some m ∧
      S.built = if m = 1 then some cvodesOpts else none := by
  unfold odeSession Ode.make at h
  dsimp only at h
  cases ht : (odeUpdate odeDefaults user "tf").bind Val.toNum with
  | none => simp [ht] at h
  | some t =>
    cases hm : (odeUpdate odeDefaults user "method").bind Val.toInt with
    | none => simp [ht, hm] at h
    | some m =>
      rw [ht, hm] at h
      have key : ∀ (ls : List (List (String × Val))) (S : Ode V U P), (ls.foldl Ode.update S) = { S with params := odeUpdate S.params ls.flatten } := by
        intro ls
        induction ls with
        | nil => intro S; rfl
        | cons a ls ih =>
          intro S
          rw [List.foldl_cons, ih, List.flatten_cons]
          show ({ S with params := odeUpdate (odeUpdate S.params a) ls.flatten } : Ode V U P) = _
          rw [odeUpdate_append]
      rw [Option.map_some, key] at h
      have h := (Option.some.inj h).symm
      subst h
      refine ⟨rfl, ?_, m, rfl, rfl⟩
      exact odeUpdate_append _ _ _

/-- Values given for `tf` are numbers. -/
def TfNumeric (l : List (String × Val)) : Prop := ∀ e ∈ l, e.1 = "tf" → (e.2.toNum).isSome

theorem tf_ok {l : List (String × Val)} (h : TfNumeric l) : ∃ q, (odeUpdate odeDefaults l "tf").bind Val.toNum = some q := by
  rw [ode_getParams, if_pos (by decide)]
  unfold lastOf
  cases hl : (l.filter fun e => e.1 = "tf").getLast? with
  | none => exact ⟨1, by simp [odeDefaults, putAll, put, Val.toNum]⟩
  | some e =>
    have := List.mem_of_getLast? hl
    rw [List.mem_filter] at this
    obtain ⟨q, hq⟩ := Option.isSome_iff_exists.1 (h e this.1 (by simpa using this.2))
    exact ⟨q, by simp [hq]⟩

/-- **C238.** Only `method` matters: two sessions that give the same values to `method` compute the same, whatever tolerances, iteration limits and final times were given to
the constructor or later, for every right-hand side and every behaviour of the integrator. -/
theorem ode_options_ignored {rhs : V → U → P → V} {user user' : List (String × Val)} {ls ls' : List (List (String × Val))}
    (h1 : lastOf "method" user = lastOf "method" user') (h2 : lastOf "method" (user ++ ls.flatten) = lastOf "method" (user' ++ ls'.flatten))
    (t1 : TfNumeric (user ++ ls.flatten)) (t2 : TfNumeric (user' ++ ls'.flatten)) (cvodes : Dict → V → U → K → P → Option V) (x : V) (u : U) (p : P) (dt : K) :
    ((odeSession rhs user ls).map fun S => S.solve cvodes x u p dt) = (odeSession rhs user' ls').map fun S => S.solve cvodes x u p dt := by
  have hm : (odeUpdate odeDefaults user "method") = odeUpdate odeDefaults user' "method" := by rw [ode_getParams, ode_getParams, h1]
  have hm2 : (odeUpdate odeDefaults (user ++ ls.flatten) "method") = odeUpdate odeDefaults (user' ++ ls'.flatten) "method" := by rw [ode_getParams, ode_getParams, h2]
  obtain ⟨q1, e1⟩ := tf_ok (l := user) fun e he => t1 e (List.mem_append_left _ he)
  obtain ⟨q2, e2⟩ := tf_ok (l := user') fun e he => t2 e (List.mem_append_left _ he)
  obtain ⟨q3, e3⟩ := tf_ok t1
  obtain ⟨q4, e4⟩ := tf_ok t2
  cases hM : (odeUpdate odeDefaults user "method").bind Val.toInt with
  | none =>
    have a1 : Ode.make rhs user = none := by unfold Ode.make; dsimp only; rw [e1, hM]
    have a2 : Ode.make rhs user' = none := by unfold Ode.make; dsimp only; rw [e2, ← hm, hM]
    unfold odeSession
    rw [a1, a2]
    rfl
  | some m =>
    obtain ⟨S, hS⟩ : ∃ S, odeSession rhs user ls = some S := by unfold odeSession Ode.make; dsimp only; rw [e1, hM]; exact ⟨_, rfl⟩
    obtain ⟨S', hS'⟩ : ∃ S, odeSession rhs user' ls' = some S := by unfold odeSession Ode.make; dsimp only; rw [e2, ← hm, hM]; exact ⟨_, rfl⟩
    obtain ⟨b1, b2, m1, b3, b4⟩ := session_shape hS
    obtain ⟨c1, c2, m2, c3, c4⟩ := session_shape hS'
    rw [hM] at b3
    rw [← hm, hM] at c3
    rw [← Option.some.inj b3] at b4
    rw [← Option.some.inj c3] at c4
    rw [hS, hS', Option.map_some, Option.map_some]
    congr 1
    unfold Ode.solve
    rw [b1, c1, b2, c2, b4, c4, hm2, e3, e4]
    cases (odeUpdate odeDefaults (user' ++ ls'.flatten) "method").bind Val.toInt <;> rfl

/-- **C238.** The integrator works with the absolute tolerance `1e-8` and at most 300 steps in every session: a state is the result of RK4, or of the integrator with these options. -/
theorem ode_state_iff {rhs : V → U → P → V} {user : List (String × Val)} {ls : List (List (String × Val))} {S : Ode V U P} (h : odeSession rhs user ls = some S)
    (ht : TfNumeric (user ++ ls.flatten)) (cvodes : Dict → V → U → K → P → Option V) (x : V) (u : U) (p : P) (dt : K) (y : V) :
    S.solve cvodes x u p dt = some (.state y) ↔
      ((S.params "method").bind Val.toInt = some 0 ∧ y = Util.rk4Solve rhs x u p dt) ∨
      ((S.params "method").bind Val.toInt = some 1 ∧ (odeUpdate odeDefaults user "method").bind Val.toInt = some 1 ∧
        cvodes (fun s => if s = "tf" then some (.num 1) else if s = "abstol" then some (.num (1 / 10 ^ 8)) else if s = "max_num_steps" then some (.int 300) else none) x u dt p = some y) := by
  obtain ⟨b1, b2, m, b3, b4⟩ := session_shape h
  obtain ⟨q, e⟩ := tf_ok ht
  have ho : (fun s => if s = "tf" then some (.num 1) else if s = "abstol" then some (.num (1 / 10 ^ 8)) else if s = "max_num_steps" then some (.int 300) else none) = cvodesOpts := by
    funext s
    unfold cvodesOpts putAll
    simp only [List.foldl_cons, List.foldl_nil, put, empty]
    by_cases h1 : s = "tf"
    · subst h1; rfl
    by_cases h2 : s = "abstol"
    · subst h2; simp; norm_num
    by_cases h3 : s = "max_num_steps"
    · subst h3; rfl
    simp [h1, h2, h3]
  rw [ho]
  unfold Ode.solve
  rw [b1, b2, e, b3]
  cases hm : (odeUpdate odeDefaults (user ++ ls.flatten) "method").bind Val.toInt with
  | none => simp
  | some k =>
    dsimp only
    by_cases h0 : k = 0
    · subst h0
      rw [if_pos rfl]
      simp [eq_comm]
    · rw [if_neg h0]
      by_cases h1 : k = 1
      · subst h1
        rw [if_pos rfl, b4]
        by_cases hm1 : m = 1
        · subst hm1
          rw [if_pos rfl]
          dsimp only
          cases hc : cvodes cvodesOpts x u dt p with
          | none => simp
          | some z => simp
        · rw [if_neg hm1]
          simp [hm1]
      · rw [if_neg h1]
        simp [h0, h1]

/-- **C238.** A method that is not an integer: the constructor throws; given to `updateParams` it is accepted, and every `solve` throws until another one is given. -/
theorem ode_bad_method {rhs : V → U → P → V} {user : List (String × Val)} {ls : List (List (String × Val))} {v : Val} (hv : v.toInt = none) :
    (lastOf "method" user = some v → odeSession rhs user ls = none) ∧
    ∀ S, odeSession rhs user ls = some S → lastOf "method" (user ++ ls.flatten) = some v → ∀ (cvodes : Dict → V → U → K → P → Option V) (x : V) (u : U) (p : P) (dt : K),
      S.solve cvodes x u p dt = none := by
  constructor
  · intro h
    have : (odeUpdate odeDefaults user "method").bind Val.toInt = none := by
      rw [ode_getParams, if_pos (by decide), h]
      simpa using hv
    unfold odeSession Ode.make
    dsimp only
    rw [this]
    cases (odeUpdate odeDefaults user "tf").bind Val.toNum <;> rfl
  · intro S hS h cvodes x u p dt
    obtain ⟨-, b2, -⟩ := session_shape hS
    have : (S.params "method").bind Val.toInt = none := by
      rw [b2, ode_getParams, if_pos (by decide), h]
      simpa using hv
    unfold Ode.solve
    rw [this]

/-- **C238.** The overload without parameters integrates with all parameters zero, also if the right-hand side has parameters. -/
theorem ode_plain_zero [Zero P] {rhs : V → U → P → V} {user : List (String × Val)} {ls : List (List (String × Val))} {S : Ode V U P} (h : odeSession rhs user ls = some S)
    (ht : TfNumeric (user ++ ls.flatten)) (hm : lastOf "method" (user ++ ls.flatten) = some (.int 0)) (cvodes : Dict → V → U → K → P → Option V) (x : V) (u : U) (dt : K) :
    S.solvePlain cvodes x u dt = some (.state (Util.rk4Solve rhs x u 0 dt)) := by
  refine (ode_state_iff h ht cvodes x u 0 dt _).2 (Or.inl ⟨?_, rfl⟩)
  rw [(session_shape h).2.1, ode_getParams, if_pos (by decide), hm]
  rfl

/-! ### Non-vacuity -/

/-- A user asks for a loose tolerance and one step, `getParams` says so, and an integrator whose answer is the tolerance shows the one in use. -/
example :
    ((odeSession (fun (x : ℚ) (_ : ℚ) (_ : ℚ) => -x) [("tol", .num (1 / 100)), ("max_iter", .int 1)] [[("tol", .num (1 / 10))], [("atol", .num 1)]]).map fun S =>
      (S.params "tol", S.params "max_iter", S.params "atol",
        S.solve (fun D (_ : ℚ) (_ : ℚ) (_ : ℚ) (_ : ℚ) => (D "abstol").bind Val.toNum) 1 0 0 (1 / 2))) =
    some (some (.num (1 / 10)), some (.int 1), none, some (.state (1 / 100000000))) := by
  rfl

/-- The name of a method, as a string: accepted later, but then no call returns. -/
example : odeSession (fun (x : ℚ) (_ : ℚ) (_ : ℚ) => -x) [("method", .str "RK4")] [] = none ∧
    ((odeSession (fun (x : ℚ) (_ : ℚ) (_ : ℚ) => -x) [("method", .int 0)] [[("method", .str "RK4")]]).map fun S =>
      S.solve (fun _ (_ : ℚ) (_ : ℚ) (_ : ℚ) (_ : ℚ) => none) 1 0 0 (1 / 2)) = some none :=
  ⟨(ode_bad_method (K := ℚ) (v := .str "RK4") rfl).1 rfl, rfl⟩

example : TfNumeric [("tol", .num (1 / 100)), ("tf", .num 3)] := by
  intro e he h
  simp only [List.mem_cons, List.not_mem_nil, or_false] at he
  rcases he with rfl | rfl
  · exact absurd h (by decide)
  · rfl

end PolyMPC.SolverOpts
