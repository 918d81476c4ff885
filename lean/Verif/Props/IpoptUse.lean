import Verif.Model.IpoptUse
import Verif.Props.Ipopt

/-!
# Property C241: what the Ipopt interface reports
-/

namespace PolyMPC.Ipopt

variable {St R : Type} [Zero R]

/-- C241. `solve` is defined exactly if Ipopt has statistics and, if it calls `finalize_solution`, passes arrays with at
least one entry per variable and one multiplier per constraint *and variable*. -/
theorem interface_solve_defined_iff (ipopt : Adapter R → Outcome St R) (s : Interface St R) :
    (∃ s', solve ipopt s = some s') ↔
      (∃ t, (ipopt s.adapter).stats = some t) ∧
      ∀ f, (ipopt s.adapter).final = some f →
        s.adapter.n ≤ f.x.length ∧ s.adapter.e + s.adapter.q + s.adapter.n ≤ f.lambda.length := by
  unfold solve afterOptimize
  cases hf : (ipopt s.adapter).final with
  | none =>
    cases ht : (ipopt s.adapter).stats with
    | none => simp [hf, ht]
    | some t => simp [hf, ht]
  | some f =>
    simp only [finalizeSolution, mapRead, Option.some.injEq, forall_eq']
    by_cases h1 : s.adapter.n ≤ f.x.length
    · by_cases h2 : s.adapter.e + s.adapter.q + s.adapter.n ≤ f.lambda.length
      · cases ht : (ipopt s.adapter).stats with
        | none => simp [hf, h1, h2]
        | some t => simp [hf, h1, h2]
      · simp [hf, h1, h2]
    · simp [hf, h1]

/-- C241. After `solve` the status, the number of iterations, `cost`, `dual_norm` and `constr_violation` are those of
Ipopt; the primal and dual solutions are the arrays given to `finalize_solution`, or the guess if it was not called. The
bounds and everything else are unchanged. -/
theorem interface_solve_reports {ipopt : Adapter R → Outcome St R} {s s' : Interface St R}
    (h : solve ipopt s = some s') :
    ∃ t, (ipopt s.adapter).stats = some t ∧ s'.status = (ipopt s.adapter).status ∧ s'.iter = t.iter ∧
      s'.cost = t.objective ∧ s'.dualNorm = t.dualInf ∧ s'.maxViolation = t.constrViol ∧
      s'.primalNorm = s.primalNorm ∧
      ((ipopt s.adapter).final = none → s'.adapter = s.adapter) ∧
      (∀ f, (ipopt s.adapter).final = some f →
        (∀ i, s'.adapter.x i = f.x.getD i 0) ∧ (∀ i, s'.adapter.lam i = f.lambda.getD i 0)) ∧
      s'.adapter.lbx = s.adapter.lbx ∧ s'.adapter.ubx = s.adapter.ubx ∧ s'.adapter.lbg = s.adapter.lbg ∧
      s'.adapter.ubg = s.adapter.ubg := by
  have hd := (interface_solve_defined_iff ipopt s).mp ⟨s', h⟩
  obtain ⟨⟨t, ht⟩, hl⟩ := hd
  refine ⟨t, ht, ?_⟩
  unfold solve afterOptimize at h
  cases hf : (ipopt s.adapter).final with
  | none =>
    simp only [hf, ht, Option.bind_some, Option.some.injEq] at h
    subst h
    exact ⟨rfl, rfl, rfl, rfl, rfl, rfl, fun _ => rfl, fun f hf' => (by cases hf'), rfl, rfl, rfl, rfl⟩
  | some f =>
    obtain ⟨h1, h2⟩ := hl f hf
    simp only [hf, ht, finalizeSolution, mapRead, if_pos h1, if_pos h2, Option.bind_some, Option.map_some,
      Option.some.injEq] at h
    subst h
    refine ⟨rfl, rfl, rfl, rfl, rfl, rfl, fun hc => (by cases hc), fun f' hf' => ?_, rfl, rfl, rfl, rfl⟩
    cases hf'
    exact ⟨fun _ => rfl, fun _ => rfl⟩

/-- C241. `primal_norm` is never computed: whatever is done with an object, it stays zero. -/
theorem interface_primal_norm_zero [Bot R] [Top R] (n e q : ℕ) (st : St) (it : ℤ) (l : List (Use St R))
    {s : Interface St R} (h : session (Interface.make n e q st it) l = some s) : s.primalNorm = 0 := by
  have key : ∀ (l : List (Use St R)) (s0 s : Interface St R), s0.primalNorm = 0 → session s0 l = some s →
      s.primalNorm = 0 := by
    intro l
    induction l with
    | nil => intro s0 s h0 h; cases h; exact h0
    | cons u l ih =>
      intro s0 s h0 h
      cases u with
      | solve i =>
        simp only [session] at h
        cases h1 : solve i s0 with
        | none => rw [h1] at h; cases h
        | some s1 =>
          rw [h1] at h
          obtain ⟨_, _, _, _, _, _, _, hp, _⟩ := interface_solve_reports h1
          exact ih s1 s (hp.trans h0) h
      | solveFrom i x lam =>
        simp only [session] at h
        cases h1 : solveFrom i x lam s0 with
        | none => rw [h1] at h; cases h
        | some s1 =>
          rw [h1] at h
          obtain ⟨_, _, _, _, _, _, _, hp, _⟩ := interface_solve_reports h1
          exact ih s1 s (hp.trans h0) h
      | edit f => exact ih _ s (by exact h0) h
  exact key l _ s rfl h

/-- C241. Ipopt documents `lambda` with one entry per constraint. With such an array and at least one variable no solution
is ever stored: a call of `solve` that is defined leaves the guess in `primal_solution` and `dual_solution`. -/
theorem interface_never_stores {ipopt : Adapter R → Outcome St R} {s s' : Interface St R} (hn : 1 ≤ s.adapter.n)
    (hl : ∀ f, (ipopt s.adapter).final = some f → f.lambda.length = s.adapter.e + s.adapter.q)
    (h : solve ipopt s = some s') : s'.adapter = s.adapter := by
  have hd := ((interface_solve_defined_iff ipopt s).mp ⟨s', h⟩).2
  cases hf : (ipopt s.adapter).final with
  | none =>
    obtain ⟨_, _, _, _, _, _, _, _, ha, _⟩ := interface_solve_reports h
    exact ha hf
  | some f =>
    have h1 := hl f hf
    have h2 := (hd f hf).2
    omega

/-- C241. The violation of the bounds on the variables, the complementarity error and the KKT error of Ipopt are dropped:
outcomes that differ only in them give the same results. -/
theorem interface_drops {ipopt ipopt' : Adapter R → Outcome St R} {s : Interface St R} {t t' : Stats R}
    (hs : (ipopt s.adapter).status = (ipopt' s.adapter).status) (hf : (ipopt s.adapter).final = (ipopt' s.adapter).final)
    (ht : (ipopt s.adapter).stats = some t) (ht' : (ipopt' s.adapter).stats = some t') (hi : t.iter = t'.iter)
    (hd : t.dualInf = t'.dualInf) (hc : t.constrViol = t'.constrViol) (ho : t.objective = t'.objective) :
    solve ipopt s = solve ipopt' s := by
  unfold solve afterOptimize
  simp only [hs, hf, ht, ht', hi, hd, hc, ho]

/-- C241. A second `solve()` starts where the first one stopped: Ipopt is given the stored solution as the guess, with the
same bounds, so two calls are one call followed by a call from the solution of the first. -/
theorem interface_solve_again {i j : Adapter R → Outcome St R} {s s' : Interface St R} (h : solve i s = some s') :
    session s [.solve i, .solve j] = solveFrom j s'.adapter.x s'.adapter.lam s' := by
  simp only [session, h, Option.bind_some, solveFrom, guess]
  cases solve j s' <;> rfl

/-- C241. `solve` with a guess gives Ipopt exactly the guess, with the bounds of the object: the results are those of Ipopt
on it, whatever solution and multipliers were stored before. -/
theorem interface_guess_used {ipopt : Adapter R → Outcome St R} {x lam : ℕ → R} {s s' : Interface St R}
    (h : solveFrom ipopt x lam s = some s') :
    ∃ o t, o = ipopt { s.adapter with x := x, lam := lam } ∧ o.stats = some t ∧ s'.status = o.status ∧
      s'.cost = t.objective ∧ (o.final = none → s'.adapter.x = x ∧ s'.adapter.lam = lam) := by
  obtain ⟨t, ht, hs, _, hc, _, _, _, ha, _⟩ := interface_solve_reports h
  refine ⟨_, t, rfl, ht, hs, hc, fun hf => ?_⟩
  rw [ha hf]
  exact ⟨rfl, rfl⟩

/-! ## Non-vacuity -/

/-- One variable, one equality, one inequality. -/
def useAdapter : Adapter ℤ where
  n := 1
  e := 1
  q := 1
  x _ := 7
  lam _ := 8
  cost := 0
  lbx _ := -1
  ubx _ := 1
  lbg _ := -1
  ubg _ := 1

/-- Object before the call, with rubbish in `m_info`. -/
def useInterface : Interface Bool ℤ := ⟨useAdapter, false, 99, 0, 0, 0, 0⟩

/-- A successful call of an Ipopt that passes `l` as multipliers. -/
def useIpopt (l : List ℤ) : Adapter ℤ → Outcome Bool ℤ := fun _ =>
  ⟨true, some ⟨[3], [0], [0], [0, 0], l, 5⟩, some ⟨12, 1, 2, 100, 4, 6, 5⟩⟩

/-- With multipliers of the documented size the call is undefined; with one more entry it is defined, and the violation of
the bounds, 100, shows in none of the results. -/
example : (solve (useIpopt [10, 20]) useInterface).isNone = true ∧
    (solve (useIpopt [10, 20, 30]) useInterface).map (fun s =>
      (s.adapter.x 0, s.adapter.lam 2, s.status, s.iter, s.cost, s.primalNorm, s.dualNorm, s.maxViolation)) =
      some (3, 30, true, 12, 5, 0, 1, 2) := by
  exact ⟨by decide +kernel, rfl⟩

/-- If Ipopt gives up before it has a point, reading the statistics is undefined. -/
example : (solve (fun _ => ⟨false, none, none⟩) useInterface).isNone = true := by decide +kernel

/-- The guess replaces what was stored: Ipopt returns the multiplier it was given as the objective. -/
example : (solveFrom (fun a => ⟨true, none, some ⟨0, 1, 2, 100, 4, 6, a.lam 0⟩⟩) (fun _ => 20) (fun _ => 21)
    useInterface).map (fun s => (s.adapter.x 0, s.cost)) = some (20, 21) := by decide +kernel

/-- A defined call that stores nothing. -/
example : (solve (fun _ => ⟨false, none, some ⟨0, 1, 2, 100, 4, 6, 5⟩⟩) useInterface).map (fun s => s.adapter.x 0) =
    some 7 := by decide +kernel

end PolyMPC.Ipopt
