import Verif.Model.SolverOpts

/-!
# Options and statistics of the Ipopt solver objects (C226)
-/

namespace PolyMPC.SolverOpts
open Ocp

set_option linter.unusedSectionVars false

theorem putAll_nil (D : Dict) : putAll D [] = D := rfl
theorem putAll_cons (D : Dict) (e : String × Val) (l : List (String × Val)) : putAll D (e :: l) = putAll (put D e.1 e.2) l := rfl

theorem putAll_notMem (l : List (String × Val)) : ∀ (D : Dict) (k : String), (∀ e ∈ l, e.1 ≠ k) → putAll D l k = D k := by
  induction l with
  | nil => exact fun _ _ _ => rfl
  | cons e l ih =>
    intro D k h
    rw [putAll_cons, ih _ _ fun e' he' => h e' (List.mem_cons_of_mem _ he')]
    exact if_neg fun hk => h e List.mem_cons_self hk.symm

theorem putAll_mem (l : List (String × Val)) : ∀ (D : Dict) (k : String) (v : Val), (l.map Prod.fst).Nodup → (k, v) ∈ l → putAll D l k = some v := by
  induction l with
  | nil => intro D k v _ h; exact absurd h (by simp)
  | cons e l ih =>
    intro D k v hn h
    rw [List.map_cons, List.nodup_cons] at hn
    rw [putAll_cons]
    rcases List.mem_cons.1 h with h | h
    · rw [putAll_notMem l _ k fun e' he' hk => hn.1 (by rw [← h]; exact List.mem_map.2 ⟨e', he', hk⟩), ← h]
      exact if_pos rfl
    · exact ih _ _ _ hn.2 h

/-- **C226.** The options of the solver that a constructor builds: what the user gives has precedence over the defaults, key by key, and there is
nothing else. -/
theorem built_options {σ : Type} (defaults user : List (String × Val)) (hd : (defaults.map Prod.fst).Nodup) (hu : (user.map Prod.fst).Nodup)
    (b : σ) (k : String) :
    (∀ v, (k, v) ∈ user → (create defaults user b).built k = some v) ∧
    ((∀ e ∈ user, e.1 ≠ k) → (∀ v, (k, v) ∈ defaults → (create defaults user b).built k = some v)) ∧
    ((∀ e ∈ user, e.1 ≠ k) → (∀ e ∈ defaults, e.1 ≠ k) → (create defaults user b).built k = none) := by
  refine ⟨fun v h => putAll_mem user _ k v hu h, fun h v hv => ?_, fun h h' => ?_⟩
  · show putAll (putAll empty defaults) user k = _
    rw [putAll_notMem user _ k h, putAll_mem defaults _ k v hd hv]
  · show putAll (putAll empty defaults) user k = _
    rw [putAll_notMem user _ k h, putAll_notMem defaults _ k h']
    rfl

/-- The keys of the defaults are distinct. -/
theorem defaults_nodup : (nmpcDefaults.map Prod.fst).Nodup ∧ (nmpfDefaults.map Prod.fst).Nodup ∧ (genericDefaults.map Prod.fst).Nodup := by
  refine ⟨?_, ?_, ?_⟩ <;> decide +kernel

/-- **C226.** `PSODESolver` looks at one of the options it is given: dictionaries with the same linear solver give the same solver. -/
theorem psode_options (user : Dict) (k : String) (hk : k ≠ "ipopt.linear_solver") :
    psodeOpts user k = psodeOpts empty k ∧ ∀ user', user' "ipopt.linear_solver" = user "ipopt.linear_solver" → psodeOpts user' = psodeOpts user := by
  refine ⟨?_, fun user' h => by unfold psodeOpts; rw [h]⟩
  unfold psodeOpts
  cases user "ipopt.linear_solver" with
  | none => rfl
  | some v => exact if_neg hk

section Nmpc
variable {K : Type} [Field K] [LinearOrder K] (d : Dims) (solver : Dict → Nmpc.Args K → Nmpc.Res K × Dict)

/-- The calls of a session other than `updateParams`. -/
def nmpcCalls : List (NOp K) → List (Nmpc.Op K)
  | [] => []
  | .call op :: ops => op :: nmpcCalls ops
  | .updateParams _ :: ops => nmpcCalls ops

/-- **C226.** `updateParams` of a constructed `nmpc` object does nothing: any session gives the results it gives without these calls, with the
solver built by the constructor. -/
theorem nmpc_updateParams_ignored (ops : List (NOp K)) : ∀ o : Full (Nmpc.Obj K),
    (nmpcRun d solver o ops).map Full.base = Nmpc.run d (fun a => (solver o.built a).1) o.base (nmpcCalls ops) := by
  induction ops with
  | nil => exact fun o => rfl
  | cons op ops ih =>
    intro o
    cases op with
    | updateParams l => exact ih { o with opts := putAll o.opts l }
    | call op =>
      show (((Nmpc.step d (fun a => (solver o.built a).1) o.base op).map _).bind fun o' => nmpcRun d solver o' ops).map Full.base
        = (Nmpc.step d (fun a => (solver o.built a).1) o.base op).bind fun b => Nmpc.run d (fun a => (solver o.built a).1) b (nmpcCalls ops)
      cases Nmpc.step d (fun a => (solver o.built a).1) o.base op with
      | none => rfl
      | some b => exact ih { o with base := b, stats := nmpcStats d solver o op }

/-- **C226.** Between calls of `computeControl` the statistics that `getStats` returns stay the same; after a call they are those of the solve
whose result the object holds. -/
theorem nmpc_stats (o o' : Full (Nmpc.Obj K)) (x : ℕ → K) (h : nmpcStep d solver o (.call (.computeControl x)) = some o') :
    o'.base.res = some (solver o.built o'.base.arg).1 ∧ o'.stats = (solver o.built o'.base.arg).2 := by
  obtain ⟨b, hb, he⟩ := Option.map_eq_some_iff.1 h
  change ((Nmpc.solveArgs d o.base x).bind fun a => Nmpc.store d o.base a (solver o.built a).1) = some b at hb
  obtain ⟨a, ha, hs⟩ := Option.bind_eq_some_iff.1 hb
  have e : o'.stats = (solver o.built a).2 := by
    rw [← he]
    show ((Nmpc.solveArgs d o.base x).map fun a => (solver o.built a).2).getD o.stats = _
    rw [ha]
    rfl
  unfold Nmpc.store at hs
  by_cases hc : (o.base.isx.fits d.NX && o.base.isu.fits d.NU) = true
  · rw [if_pos hc] at hs
    injection hs with hs
    have h1 : o'.base.arg = a := by rw [← he, ← hs]
    rw [h1]
    refine ⟨?_, e⟩
    rw [← he, ← hs]
  · rw [if_neg hc] at hs
    exact absurd hs (by simp)

/-- **C226.** No other call changes the statistics. -/
theorem nmpc_stats_kept (o o' : Full (Nmpc.Obj K)) (op : NOp K) (hop : ∀ x, op ≠ .call (.computeControl x)) (h : nmpcStep d solver o op = some o') :
    o'.stats = o.stats := by
  cases op with
  | updateParams l => injection h with h; rw [← h]
  | call op =>
    obtain ⟨b, -, he⟩ := Option.map_eq_some_iff.1 h
    rw [← he]
    cases op with
    | computeControl x => exact absurd rfl (hop x)
    | _ => rfl

end Nmpc

section Nmpf
variable {K : Type} [Field K] [LinearOrder K] (nx nu S N : ℕ) (m : Nmpf.Opts K) (solver : Dict → Nmpc.Args K → (ℕ → K) → Nmpc.Res K × Dict)

/-- The calls of a session other than `updateParams`. -/
def nmpfCalls : List (FOp K) → List (Nmpf.Op K)
  | [] => []
  | .call op :: ops => op :: nmpfCalls ops
  | .updateParams _ :: ops => nmpfCalls ops

/-- **C226.** The same for `nmpf`. -/
theorem nmpf_updateParams_ignored (ops : List (FOp K)) : ∀ o : Full (Nmpf.Obj K),
    (nmpfRun nx nu S N m solver o ops).map Full.base = Nmpf.run nx nu S N m (fun a p => (solver o.built a p).1) o.base (nmpfCalls ops) := by
  induction ops with
  | nil => exact fun o => rfl
  | cons op ops ih =>
    intro o
    cases op with
    | updateParams l => exact ih { o with opts := putAll o.opts l }
    | call op =>
      show (((Nmpf.step nx nu S N m (fun a p => (solver o.built a p).1) o.base op).map _).bind fun o' => nmpfRun nx nu S N m solver o' ops).map Full.base
        = (Nmpf.step nx nu S N m (fun a p => (solver o.built a p).1) o.base op).bind fun b =>
          Nmpf.run nx nu S N m (fun a p => (solver o.built a p).1) b (nmpfCalls ops)
      cases Nmpf.step nx nu S N m (fun a p => (solver o.built a p).1) o.base op with
      | none => rfl
      | some b => exact ih { o with base := b, stats := nmpfStats nx nu S N m solver o op }

/-- **C226.** The statistics of `nmpf` after `computeControl`. -/
theorem nmpf_stats (o o' : Full (Nmpf.Obj K)) (x : ℕ → K) (h : nmpfStep nx nu S N m solver o (.call (.computeControl x)) = some o') :
    o'.base.res = some (solver o.built o'.base.arg o'.base.p).1 ∧ o'.stats = (solver o.built o'.base.arg o'.base.p).2 := by
  obtain ⟨b, hb, he⟩ := Option.map_eq_some_iff.1 h
  change Nmpf.computeControl nx nu S N m (fun a p => (solver o.built a p).1) o.base x = some b at hb
  unfold Nmpf.computeControl at hb
  obtain ⟨a, ha, hs⟩ := Option.bind_eq_some_iff.1 hb
  have e : o'.stats = (solver o.built a o.base.p).2 := by
    rw [← he]
    show ((Nmpf.solveArgs nx nu S N m o.base x).map fun a => (solver o.built a o.base.p).2).getD o.stats = _
    rw [ha]
    rfl
  obtain ⟨c, hc, hs⟩ := Option.bind_eq_some_iff.1 hs
  injection hs with hs
  unfold Nmpc.store at hc
  by_cases hf : (o.base.toObj.isx.fits (Nmpf.aug nx nu S N).NX && o.base.toObj.isu.fits (Nmpf.aug nx nu S N).NU) = true
  · rw [if_pos hf] at hc
    injection hc with hc
    have h1 : o'.base.arg = a ∧ o'.base.p = o.base.p := by rw [← he, ← hs, ← hc]; exact ⟨rfl, rfl⟩
    rw [h1.1, h1.2]
    refine ⟨?_, e⟩
    rw [← he, ← hs, ← hc]
  · rw [if_neg hf] at hc
    exact absurd hc (by simp)

end Nmpf

section Generic
variable {K : Type} [Field K] [LinearOrder K] {d : Dims} (A : GenOcp.Appr d K) (sc : GenOcp.Scale K)
  (solver : Dict → GenOcp.Arg K → ((ℕ → K) × (ℕ → K) × (ℕ → K)) × Dict)

theorem putAll_other (l : List (String × Val)) : ∀ D D' : Dict, ∀ k, (∃ e ∈ l, e.1 = k) → putAll D l k = putAll D' l k := by
  induction l with
  | nil => rintro D D' k ⟨e, he, -⟩; exact absurd he (by simp)
  | cons e l ih =>
    rintro D D' k ⟨e', he', hk⟩
    rw [putAll_cons, putAll_cons]
    by_cases h : ∃ e ∈ l, e.1 = k
    · exact ih _ _ k h
    · have hn : ∀ e ∈ l, e.1 ≠ k := fun e he hk => h ⟨e, he, hk⟩
      rw [putAll_notMem l _ k hn, putAll_notMem l _ k hn]
      rcases List.mem_cons.1 he' with h' | h'
      · rw [h'] at hk
        exact (if_pos hk.symm).trans (if_pos hk.symm).symm
      · exact absurd hk (hn e' h')

theorem putAll_idem (l : List (String × Val)) (D : Dict) : putAll (putAll D l) l = putAll D l := by
  funext k
  by_cases h : ∃ e ∈ l, e.1 = k
  · exact putAll_other l _ _ k h
  · exact putAll_notMem l _ k fun e he hk => h ⟨e, he, hk⟩

/-- The options stay those of the constructor. -/
theorem generic_opts (user : List (String × Val)) (ops : List (GOp K)) : ∀ o o' : Full (GenOcp.Obj K), o.opts = putAll o.opts user →
    genericRun A sc solver user o ops = some o' → o'.opts = o.opts ∧ o'.built = o.built := by
  induction ops with
  | nil => intro o o' _ h; injection h with h; rw [h]; exact ⟨rfl, rfl⟩
  | cons op ops ih =>
    intro o o' ho h
    obtain ⟨o1, h1, h2⟩ := Option.bind_eq_some_iff.1 h
    have key : o1.opts = o.opts ∧ o1.built = o.built := by
      cases op with
      | updateSolverParams => injection h1 with h1; rw [← h1]; exact ⟨ho.symm, rfl⟩
      | setMapping name ab => injection h1 with h1; rw [← h1]; exact ⟨rfl, rfl⟩
      | solve lb0 ub0 X0 lamX lamG => injection h1 with h1; rw [← h1]; exact ⟨rfl, rfl⟩
      | _ => obtain ⟨b, -, hb⟩ := Option.map_eq_some_iff.1 h1; rw [← hb]; exact ⟨rfl, rfl⟩
    obtain ⟨e1, e2⟩ := ih o1 o' (by rw [key.1]; exact ho) h2
    exact ⟨e1.trans key.1, e2.trans key.2⟩

/-- **C226.** `update_solver_params` of a constructed `GenericOCP` object changes nothing at all, at any point of a session. -/
theorem generic_update_ignored (user : List (String × Val)) (b : GenOcp.Obj K) (ops ops' : List (GOp K)) :
    genericRun A sc solver user (create genericDefaults user b) (ops ++ .updateSolverParams :: ops')
      = genericRun A sc solver user (create genericDefaults user b) (ops ++ ops') := by
  have app : ∀ (l l' : List (GOp K)) (o : Full (GenOcp.Obj K)),
      genericRun A sc solver user o (l ++ l') = (genericRun A sc solver user o l).bind fun o' => genericRun A sc solver user o' l' := by
    intro l l'
    induction l with
    | nil => exact fun o => rfl
    | cons op l ih =>
      intro o
      show (genericStep A sc solver user o op).bind _ = ((genericStep A sc solver user o op).bind _).bind _
      rw [Option.bind_assoc]
      exact congrArg (Option.bind _) (funext fun o' => ih o')
  rw [app, app]
  cases e : genericRun A sc solver user (create genericDefaults user b) ops with
  | none => rfl
  | some o =>
    have h := (generic_opts A sc solver user ops (create genericDefaults user b) o (putAll_idem user _).symm e).1
    show genericRun A sc solver user { o with opts := putAll o.opts user } ops' = genericRun A sc solver user o ops'
    rw [show putAll o.opts user = o.opts by rw [h]; exact putAll_idem user _]

/-- **C226.** `solve_status` after `solve` holds the statistics of that solve. -/
theorem generic_stats (user : List (String × Val)) (o o' : Full (GenOcp.Obj K)) (lb0 ub0 : ℕ → K) (X0 lamX lamG : Option (ℕ → K))
    (h : genericStep A sc solver user o (.solve lb0 ub0 X0 lamX lamG) = some o') :
    o'.stats = (solver o.built o'.base.arg).2 ∧ (o'.base.nlpX, o'.base.nlpLamX, o'.base.nlpLamG) = (solver o.built o'.base.arg).1 := by
  injection h with h
  rw [← h]
  exact ⟨rfl, rfl⟩

end Generic

/-- A user tolerance given to the constructors of `nmpc` reaches its solver, the same option given to `updateParams` or to `PSODESolver` does not. -/
example : (create nmpcDefaults [("ipopt.tol", .num (1 / 10))] ()).built "ipopt.tol" = some (.num (1 / 10)) ∧
    (create nmpcDefaults [("ipopt.tol", .num (1 / 10))] ()).built "ipopt.max_iter" = some (.int 150) ∧
    psodeOpts (put empty "ipopt.tol" (.num (1 / 10))) "ipopt.tol" = some (.num (1 / 10000)) := by
  refine ⟨?_, ?_, ?_⟩ <;> decide +kernel

end PolyMPC.SolverOpts
