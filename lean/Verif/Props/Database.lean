import Verif.Lemmas.Rerun
import Verif.Spec.Gaussian

/-!
# Result tables, `ep_iterations` and sweeps: C45–C50
-/

namespace Verif

/-! ## C45 -/

/-- The dict made from the named tuple `exp_data`. -/
def namedTuple (tr : String) (seed : ℤ) (it power damping : ℝ) (a b m v nodes : Cell) : Db.Dict :=
  [("Transform", .text tr), ("Seed", .num seed), ("Iter", .num it), ("Power", .num power), ("Damping", .num damping), ("RMSE", a),
    ("NLL", b), ("Mean", m), ("Variance", v), ("Nodes", nodes)]

/-- **C45.** `ep_iterations` offers one row per completed iteration, the `i`-th with the metrics of the nodes after `i` passes, and
commits it before the next pass.  It returns after `max_iter` rows; an exception comes from the first pass (or metrics of a pass) that
fails, and then exactly the rows of the passes before it are in the file. -/
theorem C45_rows_logged (env : Env) (nodes : List Ref) (xs : List Arr) (name tr : String) (seed : ℤ) (it power damping : ℝ)
    (a b m v nd : Cell) (maxIter : ℕ) (h : Heap) (c : Conn) (rows : List Row) (hc : c.work name = some (expTable rows)) :
    ∃ (rs : List Row) (res : Py Unit) (h' : Heap) (c' : Conn),
      epIterations env nodes maxIter (some xs) (namedTuple tr seed it power damping a b m v nd) name ⟨h, c⟩ = (res, ⟨h', c'⟩) ∧
      c'.work = Function.update c.work name (some (expTable (addRows 5 rows rs))) ∧
      c'.saved = (if rs = [] then c.saved else c'.work) ∧
      (∀ i, i < rs.length → (epFwdBack env nodes (passes env nodes i h)).1 = .ok () ∧
        ∃ rmse nll, Metrics.nodeMetrics env (passes env nodes (i + 1) h) nodes xs = .ok (rmse, nll) ∧
          rs[i]? = some (expRow tr seed power damping (it + (i + 1)) rmse nll)) ∧
      (res = .ok () ∧ rs.length = maxIter ∧ h' = passes env nodes maxIter h ∨
        ∃ e, res = .error e ∧ rs.length < maxIter ∧
          ((epFwdBack env nodes (passes env nodes rs.length h)).1 = .error e ∨
            (epFwdBack env nodes (passes env nodes rs.length h)).1 = .ok () ∧
            Metrics.nodeMetrics env (passes env nodes (rs.length + 1) h) nodes xs = .error e)) := by
  obtain ⟨h', e, e'⟩ := epLoop_run env nodes xs name tr seed power damping maxIter it a b m v h c rows hc
  obtain ⟨s1, s2⟩ := epRows_spec env nodes xs (expRow tr seed power damping) maxIter it h
  obtain ⟨l1, l2⟩ := epRows_length env nodes xs (expRow tr seed power damping) maxIter it h
  refine ⟨(epRows env nodes xs (expRow tr seed power damping) maxIter it h).1, _, h', _, e, commitRows_work hc _, ?_, s1, ?_⟩
  · rw [commitRows_saved hc, commitRows_work hc]
  · cases ho : (epRows env nodes xs (expRow tr seed power damping) maxIter it h).2 with
    | ok u => exact .inl ⟨rfl, l2.2 ho, e' ho⟩
    | error er =>
      refine .inr ⟨er, rfl, lt_of_le_of_ne l1 fun hl => ?_, s2 er ho⟩
      rw [l2.1 hl] at ho
      simp at ho

/-- **C45.** Without true states nothing is written, whatever happens. -/
theorem C45_no_truth_no_rows (env : Env) (nodes : List Ref) (name : String) (maxIter : ℕ) (data : Db.Dict) (h : Heap) (c : Conn) :
    (epIterations env nodes maxIter none data name ⟨h, c⟩).2.conn = c :=
  epLoop_none env nodes name maxIter _ _

/-! ## C46 -/

/-- Inserts experiment rows one after the other, each given as a dict. -/
noncomputable def insertAll (name : String) (ds : List Db.Dict) : PyM Conn Unit :=
  PyM.forEach ds fun d => Db.insertExperimentData name d

/-- A dict with the nine values of a row, the five of the key not null. -/
def IsRow (d : Db.Dict) (r : Row) : Prop :=
  d.map Prod.snd = r ∧ r.length = 9 ∧ ∀ x ∈ r.take 5, x ≠ Cell.null

private theorem insertAll_run (name : String) (ds : List Db.Dict) (rs : List Row) (hd : List.Forall₂ IsRow ds rs) (c : Conn)
    (rows : List Row) (hc : c.work name = some (expTable rows)) :
    ∃ c', insertAll name ds c = (.ok (), c') ∧ c'.work = Function.update c.work name (some (expTable (addRows 5 rows rs))) ∧
      c'.saved = c.saved := by
  induction hd generalizing c rows with
  | nil => exact ⟨c, rfl, by simp [← hc], rfl⟩
  | @cons d r ds rs h1 _ ih =>
    have hs : ExpShape r := by
      obtain ⟨-, h2, h3⟩ := h1
      match r, h2, h3 with
      | [a, b, c, d, e, f, g, h, i], _, h3 => exact ⟨_, _, _, _, _, _, _, _, _, rfl, by
        simp only [List.take, List.mem_cons, List.not_mem_nil, or_false, forall_eq_or_imp, forall_eq] at h3
        simp only [List.mem_cons, List.not_mem_nil, or_false, not_or]
        exact ⟨h3.1.symm, h3.2.1.symm, h3.2.2.1.symm, h3.2.2.2.1.symm, h3.2.2.2.2.symm⟩⟩
    have hi : Db.insertExperimentData name d c = (.ok (), c.put name (expTable (addRow 5 rows r))) := by
      unfold Db.insertExperimentData
      rw [h1.1]
      exact insert_run hc (exp_insert rows hs)
    obtain ⟨c', e1, e2, e3⟩ := ih (c.put name (expTable (addRow 5 rows r))) (addRow 5 rows r) (Function.update_self ..)
    refine ⟨c', (PyM.bind_ok hi _).trans e1, ?_, e3⟩
    rw [e2]
    show Function.update (Function.update _ _ _) _ _ = _
    rw [Function.update_idem]; rfl

open Classical in
/-- **C46.** After any sequence of inserts: rows that were there stay, in front; no two rows have the same key if that was so before;
the row stored for a key is the first one ever written with it; every inserted key is stored; inserting all again changes nothing. -/
theorem C46_first_write_wins (name : String) (ds : List Db.Dict) (rs : List Row) (hd : List.Forall₂ IsRow ds rs) (c : Conn)
    (rows : List Row) (hc : c.work name = some (expTable rows)) :
    ∃ c' rows', insertAll name ds c = (.ok (), c') ∧ c'.work name = some (expTable rows') ∧ c'.saved = c.saved ∧
      (∀ other, other ≠ name → c'.work other = c.work other) ∧
      rows <+: rows' ∧ (Keyed 5 rows → Keyed 5 rows') ∧
      (∀ key, rows'.find? (fun q => q.take 5 = key) = (rows ++ rs).find? fun q => q.take 5 = key) ∧
      (∀ r ∈ rs, ∃ q ∈ rows', q.take 5 = r.take 5) ∧
      ∃ c'', insertAll name ds c' = (.ok (), c'') ∧ c''.work = c'.work := by
  obtain ⟨c', e1, e2, e3⟩ := insertAll_run name ds rs hd c rows hc
  have e2' : c'.work name = some (expTable (addRows 5 rows rs)) := by rw [e2, Function.update_self]
  refine ⟨c', addRows 5 rows rs, e1, e2', e3, fun o ho => by rw [e2, Function.update_of_ne ho], addRows_prefix 5 rows rs,
    fun h => addRows_keyed h rs, fun key => ?_, fun r hr => addRows_mem_key hr, ?_⟩
  · exact addRows_find 5 rows rs key
  · obtain ⟨c'', k1, k2, -⟩ := insertAll_run name ds rs hd c' _ e2'
    refine ⟨c'', k1, ?_⟩
    rw [k2, addRows_again List.prefix_rfl, ← e2', Function.update_eq_self]

open Classical in
/-- **C46.** The same for simulated data, keyed by seed and time. -/
theorem C46_first_simulation_wins (name : String) (seed : ℤ) (data : List (Arr × Arr)) (c : Conn) (rows : List Row)
    (hc : c.work name = some (dynTable rows)) :
    ∃ c' rows', Db.insertDynamicsData name data seed c = (.ok (), c') ∧ c'.work name = some (dynTable rows') ∧ c'.saved = c.saved ∧
      (∀ other, other ≠ name → c'.work other = c.work other) ∧
      rows <+: rows' ∧ (Keyed 2 rows → Keyed 2 rows') ∧
      (∀ key, rows'.find? (fun q => q.take 2 = key) = (rows ++ dynRows seed 0 data).find? fun q => q.take 2 = key) ∧
      (∀ (t : ℕ) (p : Arr × Arr), data[t]? = some p → ∃ q ∈ rows', q.take 2 = [.num seed, .num t]) ∧
      ∃ c'', Db.insertDynamicsData name data seed c' = (.ok (), c'') ∧ c''.work = c'.work := by
  obtain ⟨c', e1, e2, e3, -⟩ := insertDynamics_run name seed data 0 hc
  have e2' : c'.work name = some (dynTable (addRows 2 rows (dynRows seed 0 data))) := by rw [e2, Function.update_self]
  refine ⟨c', _, e1, e2', e3, fun o ho => by rw [e2, Function.update_of_ne ho], addRows_prefix 2 rows _,
    fun h => addRows_keyed h _, fun key => ?_, fun t p hp => ?_, ?_⟩
  · exact addRows_find 2 rows _ key
  · have hmem : ∀ (l : List (Arr × Arr)) (t0 t : ℕ), l[t]? = some p →
        ([.num seed, .num ((t0 + t : ℕ) : ℝ), .array p.1, .array p.2] : Row) ∈ dynRows seed t0 l := by
      intro l
      induction l with
      | nil => intro t0 t h; simp at h
      | cons a l ih =>
        intro t0 t h
        cases t with
        | zero => simp at h; subst h; simp [dynRows]
        | succ t =>
          have := ih (t0 + 1) t (by simpa using h)
          rw [show t0 + (t + 1) = t0 + 1 + t by omega]
          exact List.mem_cons_of_mem _ this
    obtain ⟨q, hq, e⟩ := addRows_mem_key (k := 2) (rows := rows) (hmem data 0 t hp)
    exact ⟨q, hq, by rw [e]; simp⟩
  · obtain ⟨c'', k1, k2, -⟩ := insertDynamics_run name seed data 0 e2'
    refine ⟨c'', k1, ?_⟩
    rw [k2, addRows_again List.prefix_rfl, ← e2', Function.update_eq_self]

-- two rows with the same key: the second is dropped
example : ∃ c', insertAll "E" [namedTuple "UT" 1 1 1 1 (.num 3) (.num 4) .null .null .null |>.del "Nodes",
      namedTuple "UT" 1 1 1 1 (.num 5) (.num 6) .null .null .null |>.del "Nodes"]
      (Conn.connect fun n => if n = "E" then some (expTable []) else none) = (.ok (), c') ∧
    c'.work "E" = some (expTable [[.text "UT", .num 1, .num 1, .num 1, .num 1, .num 3, .num 4, .null, .null]]) := by
  obtain ⟨c', h1, h2, -⟩ := insertAll_run "E" [namedTuple "UT" 1 1 1 1 (.num 3) (.num 4) .null .null .null |>.del "Nodes",
      namedTuple "UT" 1 1 1 1 (.num 5) (.num 6) .null .null .null |>.del "Nodes"] [[.text "UT", .num 1, .num 1, .num 1, .num 1, .num 3, .num 4, .null, .null],
    [.text "UT", .num 1, .num 1, .num 1, .num 1, .num 5, .num 6, .null, .null]]
    (.cons ⟨by simp [namedTuple, Db.Dict.del], rfl, by simp⟩ (.cons ⟨by simp [namedTuple, Db.Dict.del], rfl, by simp⟩ .nil))
    (Conn.connect fun n => if n = "E" then some (expTable []) else none) [] rfl
  refine ⟨c', h1, ?_⟩
  rw [h2, Function.update_self]
  simp [addRows, addRow]

/-! ## C47 -/

/-- **C47.** A sweep, also with `override`, keeps all rows of both tables, in place; no second row gets an existing key, so every row
that was stored is still the only one with its key. -/
theorem C47_override_keeps_rows (env : Env) (jac : Jac) (draws : Draws) (cfg : Config) (hne : cfg.dynTable ≠ cfg.expTable)
    (seeds : List ℤ) (transTypes : List String) (powers dampings : List ℝ) (override : Bool) (file : Tables)
    (drows erows : List Row) (h : Holds cfg file (drows, erows)) :
    ∃ drows' erows', (sweepMain env jac draws cfg seeds transTypes powers dampings override (Conn.connect file)).2.work cfg.dynTable =
        some (dynTable drows') ∧
      (sweepMain env jac draws cfg seeds transTypes powers dampings override (Conn.connect file)).2.work cfg.expTable =
        some (expTable erows') ∧
      drows <+: drows' ∧ erows <+: erows' ∧ (Keyed 2 drows → Keyed 2 drows') ∧ (Keyed 5 erows → Keyed 5 erows') ∧
      (Keyed 5 erows → ∀ r ∈ erows, ∀ q ∈ erows', q.take 5 = r.take 5 → q = r) := by
  obtain ⟨c, h1, h2, -⟩ := create_run hne h
  obtain ⟨ds, rs, g, -, -⟩ := grow_sweep (base := file) hne env jac draws (settings transTypes powers dampings) override seeds seeds
    (List.Subset.refl _) c (drows, erows) h2.1
  have e : sweepMain env jac draws cfg seeds transTypes powers dampings override (Conn.connect file) =
      sweepSeeds env jac draws cfg (settings transTypes powers dampings) override seeds c := h1 _
  rw [e, g]
  refine ⟨_, _, tabs_dyn hne _, tabs_exp _, addRows_prefix .., addRows_prefix .., fun h => addRows_keyed h _,
    fun h => addRows_keyed h _, fun hk r hr q hq hqr => ?_⟩
  have hk' := addRows_keyed hk rs
  by_contra hne'
  rcases List.mem_iff_getElem.1 hq with ⟨i, hi, rfl⟩
  rcases List.mem_iff_getElem.1 ((addRows_prefix 5 erows rs).subset hr) with ⟨j, hj, rfl⟩
  rcases lt_trichotomy i j with hij | hij | hij
  · exact (List.pairwise_iff_getElem.1 hk' i j hi hj hij) hqr
  · subst hij; exact hne' rfl
  · exact (List.pairwise_iff_getElem.1 hk' j i hj hi hij) hqr.symm

/-- **C47.** With `override` the iterations of a setting are run whatever is stored. -/
theorem C47_override_runs (env : Env) (jac : Jac) (draw : Draw) (cfg : Config) (x y : List Arr) (seed : ℤ) (s : Setting) (c : Conn)
    (rows : List Row) (hc : c.work cfg.expTable = some (expTable rows)) :
    sweepSetting env jac draw cfg x y seed true s c =
      (match powerSweep env jac draw cfg x y seed s c with
        | (.ok _, c') => (.ok true, c')
        | (.error .linAlg, c') => (.ok true, c')
        | (.error e, c') => (.error e, c')) := by
  rw [sweepSetting_run env jac draw cfg x y seed true s hc (.inl rfl), powerSweep_run env jac draw cfg x y seed s hc]
  generalize (powerRows env jac draw cfg x y seed s).2 = o
  cases o with
  | ok u => rfl
  | error e => cases e <;> rfl

/-- A small configuration: two time steps of a scalar state, simulated data all equal to the seed. -/
noncomputable def demoConfig (n : ℕ) : Config :=
  { system := ⟨fun x _ _ => .ok x, fun x _ _ => .ok x, .s 1, .s 1, Gaussian.ofMoment (.v (n := 1) ![0]) (.m (r := 1) (c := 1) 1), 1⟩
    timesteps := 2
    sysDim := 1
    numIter := n
    dynTable := "SIM"
    expTable := "EXP"
    sim := fun seed => .ok [(.v ![seed], .v ![seed]), (.v ![seed], .v ![seed])] }

/-- A wrong result, stored before the sweep, stays. -/
example (jac : Jac) (draws : Draws) :
    ∃ erows', (sweepMain calmEnv jac draws (demoConfig 50) [7, 8] ["UT"] [1, 1 / 2] [1] true (Conn.connect fun n =>
        if n = "EXP" then some (expTable [expRow "UT" 7 1 1 3 1000 1000]) else none)).2.work "EXP" = some (expTable erows') ∧
      expRow "UT" 7 1 1 3 1000 1000 ∈ erows' ∧ ∀ r, expRow "UT" 7 1 1 3 r r ∈ erows' → r = 1000 := by
  obtain ⟨_, e, -, h2, -, h3, -, -, h4⟩ := C47_override_keeps_rows calmEnv jac draws (demoConfig 50) (by simp [demoConfig]) [7, 8] ["UT"]
    [1, 1 / 2] [1] true (fun n => if n = "EXP" then some (expTable [expRow "UT" 7 1 1 3 1000 1000]) else none) []
    [expRow "UT" 7 1 1 3 1000 1000] ⟨.inr ⟨by simp [demoConfig], rfl⟩, .inl (by simp [demoConfig])⟩
  refine ⟨e, h2, h3.subset (List.mem_singleton_self _), fun r hr => ?_⟩
  have := h4 (by simp [Keyed]) _ (List.mem_singleton_self _) _ hr (by simp [expRow])
  simpa [expRow] using this

/-! ## C48 -/

/-- **C48.** Whatever the moment at which the process dies during `ep_iterations`, the file is as before, or it holds what the
connection saw at the start plus the rows of a prefix of the iterations. -/
theorem C48_crash_prefix (env : Env) (nodes : List Ref) (xs : List Arr) (name tr : String) (seed : ℤ) (it power damping : ℝ)
    (a b m v nd : Cell) (maxIter : ℕ) (h : Heap) (c : Conn) (rows : List Row) (hc : c.work name = some (expTable rows)) :
    ∃ (rs : List Row) (new : List Tables), rs.length ≤ maxIter ∧
      (∀ i, i < rs.length → ∃ rmse nll, Metrics.nodeMetrics env (passes env nodes (i + 1) h) nodes xs = .ok (rmse, nll) ∧
          rs[i]? = some (expRow tr seed power damping (it + (i + 1)) rmse nll)) ∧
      (epIterations env nodes maxIter (some xs) (namedTuple tr seed it power damping a b m v nd) name ⟨h, c⟩).2.conn.history =
        c.history ++ new ∧
      ∀ f ∈ new, f = c.saved ∨ ∃ j, 1 ≤ j ∧ j ≤ rs.length ∧
        f = Function.update c.work name (some (expTable (addRows 5 rows (rs.take j)))) := by
  obtain ⟨h', e, -⟩ := epLoop_run env nodes xs name tr seed power damping maxIter it a b m v h c rows hc
  obtain ⟨s1, s2⟩ := epRows_spec env nodes xs (expRow tr seed power damping) maxIter it h
  obtain ⟨l1, l2⟩ := epRows_length env nodes xs (expRow tr seed power damping) maxIter it h
  obtain ⟨new, n1, n2, -⟩ := commitRows_history hc (epRows env nodes xs (expRow tr seed power damping) maxIter it h).1
  refine ⟨_, new, l1, fun i hi => (s1 i hi).2, ?_, n2⟩
  rw [show epIterations env nodes maxIter (some xs) (namedTuple tr seed it power damping a b m v nd) name ⟨h, c⟩ = _ from e]
  exact n1

/-- **C48.** Crash and restart: for results that depend only on the seed and the setting, and at most fifty iterations (or with
`override`), running the whole sweep again on any file the first run left behind gives the file of an uninterrupted run. -/
theorem C48_rerun_completes (env : Env) (jac : Jac) (draws : Draws) (hdraws : ∀ seed l l', draws seed l = draws seed l')
    (cfg : Config) (hne : cfg.dynTable ≠ cfg.expTable) (seeds : List ℤ) (transTypes : List String) (powers dampings : List ℝ)
    (override : Bool) (hiter : override = true ∨ cfg.numIter ≤ 50) (file : Tables) (drows erows : List Row)
    (h : Holds cfg file (drows, erows)) (f : Tables)
    (hf : f ∈ (sweepMain env jac draws cfg seeds transTypes powers dampings override (Conn.connect file)).2.history) :
    (sweepMain env jac draws cfg seeds transTypes powers dampings override (Conn.connect f)).2.saved =
      (sweepMain env jac draws cfg seeds transTypes powers dampings override (Conn.connect file)).2.saved := by
  set bs := sweepBlocks env jac draws cfg (settings transTypes powers dampings) override seeds with hbs
  have himpl : ∀ base, Impl base cfg (sweepSeeds env jac draws cfg (settings transTypes powers dampings) override seeds) bs :=
    fun base => impl_sweep hne env jac draws hdraws _ override seeds
  -- a run from any file, in terms of the plan
  have run : ∀ (file : Tables) (st : St), Holds cfg file st →
      (sweepMain env jac draws cfg seeds transTypes powers dampings override (Conn.connect file)).2.saved =
        tabs file cfg (exec bs (st, st)).2 ∧
      ∀ f ∈ (sweepMain env jac draws cfg seeds transTypes powers dampings override (Conn.connect file)).2.history,
        f = file ∨ f = Function.update file cfg.dynTable (some (dynTable st.1)) ∨ f = tabs file cfg st ∨
          ∃ g, InFiles bs st g ∧ f = tabs file cfg g := by
    intro file st h
    obtain ⟨c, h1, h2, h3⟩ := create_run hne h
    have e : sweepMain env jac draws cfg seeds transTypes powers dampings override (Conn.connect file) =
        sweepSeeds env jac draws cfg (settings transTypes powers dampings) override seeds c := h1 _
    obtain ⟨r1, new, r2, r3⟩ := himpl file c st st h2
    rw [e]
    refine ⟨r1.2, fun f hf => ?_⟩
    rw [r2, h3] at hf
    simp only [List.cons_append, List.nil_append, List.mem_cons] at hf
    rcases hf with hf | hf | hf | hf
    · exact .inl hf
    · exact .inr (.inl hf)
    · exact .inr (.inr (.inl hf))
    · exact .inr (.inr (r3 f hf))
  have htabs : ∀ g : St, Holds cfg (tabs file cfg g) g := fun g => ⟨.inl (tabs_dyn hne g), .inl (tabs_exp g)⟩
  have hover : ∀ g st : St, tabs (tabs file cfg g) cfg st = tabs file cfg st := fun g st => by
    show Function.update (Function.update (tabs file cfg g) cfg.dynTable (some (dynTable st.1))) cfg.expTable _ = _
    rw [tabs_update_dyn hne g st.1, tabs_update_exp]
  obtain ⟨s0, hh⟩ := run file _ h
  rcases hh f hf with rfl | rfl | rfl | ⟨g, hg, rfl⟩
  · rfl
  · have hH : Holds cfg (Function.update file cfg.dynTable (some (dynTable drows))) (drows, erows) :=
      ⟨.inl (Function.update_self ..), by rw [Function.update_of_ne hne.symm]; exact h.2⟩
    rw [(run _ _ hH).1, s0]
    unfold tabs
    rw [Function.update_idem]
  · rw [(run _ _ (htabs _)).1, s0, hover]
  · rw [(run _ _ (htabs _)).1, s0, hover, exec_rerun hg (sweepBlocks_good env jac draws cfg _ override hiter seeds) (drows, erows)]

-- starting from an empty database
example (jac : Jac) (draw : Draw) (f : Tables)
    (hf : f ∈ (sweepMain calmEnv jac (fun _ _ => draw) (demoConfig 50) [7, 8] ["UT", "TT"] [1, 1 / 2] [1] false
      (Conn.connect fun _ => none)).2.history) :
    (sweepMain calmEnv jac (fun _ _ => draw) (demoConfig 50) [7, 8] ["UT", "TT"] [1, 1 / 2] [1] false (Conn.connect f)).2.saved =
      (sweepMain calmEnv jac (fun _ _ => draw) (demoConfig 50) [7, 8] ["UT", "TT"] [1, 1 / 2] [1] false
        (Conn.connect fun _ => none)).2.saved :=
  C48_rerun_completes calmEnv jac _ (fun _ _ _ => rfl) (demoConfig 50) (by simp [demoConfig]) _ _ _ _ false (.inr le_rfl) _ [] []
    ⟨.inr ⟨rfl, rfl⟩, .inr ⟨rfl, rfl⟩⟩ f hf

/-- **C48.** More than fifty iterations: a run of a setting that dies after its fiftieth row is taken for complete; running the
sweep again adds nothing, and the row of iteration fifty-one stays missing. -/
theorem C48_more_than_fifty_is_lost (env : Env) (jac : Jac) (draw : Draw) (cfg : Config) (x y : List Arr) (seed : ℤ) (s : Setting)
    (c : Conn) (rows rows' : List Row) (hc : c.work cfg.expTable = some (expTable rows))
    (hnew : ∀ r ∈ rows, ∀ it, r.take 5 ≠ [.text s.transId, .num seed, .num it, .num s.power, .num s.damping])
    (hrun : (powerSweep env jac draw cfg x y seed s c).2.work cfg.expTable = some (expTable (rows ++ rows')))
    (hlen : 50 < rows'.length) :
    ∃ f ∈ (sweepSetting env jac draw cfg x y seed false s c).2.history,
      f cfg.expTable = some (expTable (rows ++ rows'.take 50)) ∧
      (∀ r ∈ rows ++ rows'.take 50, r.take 5 ≠ [.text s.transId, .num seed, .num 51, .num s.power, .num s.damping]) ∧
      (∃ r ∈ rows', r.take 5 = [.text s.transId, .num seed, .num 51, .num s.power, .num s.damping]) ∧
      ∀ c', c'.work = f → sweepSetting env jac draw cfg x y seed false s c' = (.ok false, c') := by
  have hm : ¬ ∃ r ∈ rows, Marks seed s r := fun ⟨r, hr, h⟩ => hnew r hr 50 h
  rw [powerSweep_run env jac draw cfg x y seed s hc] at hrun
  rw [sweepSetting_run env jac draw cfg x y seed false s hc (.inr hm)]
  set rs := (powerRows env jac draw cfg x y seed s).1 with hrs
  have hget := powerRows_get env jac draw cfg x y seed s
  rw [← hrs] at hget
  have hkey : ∀ (i : ℕ) (r : Row), rs[i]? = some r →
      r.take 5 = [.text s.transId, .num seed, .num (i + 1), .num s.power, .num s.damping] := fun i r hr => by
    obtain ⟨a, b, rfl⟩ := hget i r hr
    rfl
  -- all rows offered are new
  have hadd : ∀ n, addRows 5 rows (rs.take n) = rows ++ rs.take n := by
    intro n
    induction n with
    | zero => simp
    | succ n ih =>
      by_cases hn : n < rs.length
      · rw [List.take_succ_eq_append_getElem hn, addRows_append, ih]
        have hk := hkey n rs[n] (List.getElem?_eq_getElem hn)
        show addRow 5 _ _ = _
        unfold addRow
        rw [if_neg, List.append_assoc]
        rintro ⟨q, hq, e⟩
        rcases List.mem_append.1 hq with hq | hq
        · exact hnew q hq _ (e.trans hk)
        · obtain ⟨i, hi, rfl⟩ := List.mem_iff_getElem.1 hq
          have hi' : i < n := by simp at hi; omega
          rw [List.getElem_take, hkey i _ (List.getElem?_eq_getElem (by omega)), hk] at e
          simp at e
          omega
      · rw [List.take_of_length_le (by omega)] at ih ⊢
        exact ih
  have hall : addRows 5 rows rs = rows ++ rs := by simpa using hadd rs.length
  have hr' : rows' = rs := by
    have hrun' : (commitRows cfg.expTable c rows rs).work cfg.expTable = some (expTable (rows ++ rows')) := hrun
    rw [commitRows_work hc, Function.update_self, hall] at hrun'
    have := congrArg Table.rows (Option.some.inj hrun')
    exact (List.append_cancel_left this).symm
  subst hr'
  obtain ⟨new, n1, -, n3⟩ := commitRows_history hc rs
  have hmem := n3 50 (by norm_num) (by omega)
  rw [hadd 50] at hmem
  refine ⟨_, by show _ ∈ (commitRows cfg.expTable c rows rs).history; rw [n1]; exact List.mem_append_right _ hmem,
    Function.update_self .., ?_, ?_, fun c' hc' => ?_⟩
  · intro r hr e
    rcases List.mem_append.1 hr with hr | hr
    · exact hnew r hr 51 e
    · obtain ⟨i, hi, rfl⟩ := List.mem_iff_getElem.1 hr
      have hi' : i < 50 := by simp at hi; omega
      rw [List.getElem_take, hkey i _ (List.getElem?_eq_getElem (by omega))] at e
      simp at e
      have : (i : ℝ) = 50 := by linarith
      norm_cast at this
      omega
  · refine ⟨rs[50], List.getElem_mem _, ?_⟩
    rw [hkey 50 _ (List.getElem?_eq_getElem (by omega))]
    norm_num
  · refine sweepSetting_skip env jac draw cfg x y seed s (rows := rows ++ rs.take 50)
      (by rw [hc', Function.update_self]) ⟨rs[49], ?_, ?_⟩
    · refine List.mem_append_right _ (List.mem_iff_getElem.2 ⟨49, by simp; omega, ?_⟩)
      rw [List.getElem_take]
    · unfold Marks
      rw [hkey 49 _ (List.getElem?_eq_getElem (by omega))]
      norm_num

/-! ## C49 -/

/-- No iteration of the setting is completed: preparing the nodes fails, no iterations are asked for, the first pass raises, or its
metrics can not be computed. -/
def NoIteration (env : Env) (jac : Jac) (draw : Draw) (cfg : Config) (x y : List Arr) (s : Setting) : Prop :=
  match powerSweepNodes env jac draw cfg y s ⟨fun _ => Node.init 0 0, 0⟩ with
  | (.error _, _) => True
  | (.ok nodes, h) => cfg.numIter = 0 ∨ (∃ e, (epFwdBack env nodes h).1 = .error e) ∨
      ∃ e, Metrics.nodeMetrics env (epFwdBack env nodes h).2 nodes x = .error e

private theorem powerRows_nil {env : Env} {jac : Jac} {draw : Draw} {cfg : Config} {x y : List Arr} {s : Setting} (seed : ℤ)
    (h : NoIteration env jac draw cfg x y s) : (powerRows env jac draw cfg x y seed s).1 = [] := by
  unfold NoIteration at h
  unfold powerRows
  rcases hn : powerSweepNodes env jac draw cfg y s ⟨fun _ => Node.init 0 0, 0⟩ with ⟨⟨e⟩ | ⟨nodes⟩, h1⟩
  · rfl
  · rw [hn] at h
    simp only at h ⊢
    rcases h with h | ⟨e, h⟩ | ⟨e, h⟩
    · rw [h]; rfl
    · cases cfg.numIter <;> simp [epRows, h]
    · cases cfg.numIter with
      | zero => rfl
      | succ n =>
        unfold epRows
        cases (epFwdBack env nodes h1).1 with
        | error e => rfl
        | ok u => simp [h]

/-- **C49.** If every setting is skipped or completes no iteration, the file is at the end as after creating the tables: the
simulated data written by this run is lost. -/
theorem C49_simulation_lost (env : Env) (jac : Jac) (draws : Draws) (cfg : Config) (hne : cfg.dynTable ≠ cfg.expTable)
    (seeds : List ℤ) (transTypes : List String) (powers dampings : List ℝ) (override : Bool) (file : Tables)
    (drows erows : List Row) (h : Holds cfg file (drows, erows))
    (hno : ∀ seed ∈ seeds, ∀ data, cfg.sim seed = .ok data → ∀ t ∈ transTypes, ∀ p ∈ powers, ∀ d ∈ dampings,
      (override = false ∧ ∃ r ∈ erows, Marks seed ⟨t, p, d⟩ r) ∨
        ∀ ran, NoIteration env jac (draws seed ran) cfg (data.map Prod.fst) (data.map Prod.snd) ⟨t, p, d⟩) :
    (sweepMain env jac draws cfg seeds transTypes powers dampings override (Conn.connect file)).2.saved cfg.dynTable =
      some (dynTable drows) ∧
    (sweepMain env jac draws cfg seeds transTypes powers dampings override (Conn.connect file)).2.saved cfg.expTable =
      some (expTable erows) ∧
    ∀ n, n ≠ cfg.dynTable → n ≠ cfg.expTable →
      (sweepMain env jac draws cfg seeds transTypes powers dampings override (Conn.connect file)).2.saved n = file n := by
  obtain ⟨c, h1, h2, -⟩ := create_run hne h
  obtain ⟨ds, rs, -, g, g'⟩ := grow_sweep (base := file) hne env jac draws (settings transTypes powers dampings) override seeds seeds
    (List.Subset.refl _) c (drows, erows) h2.1
  have e : sweepMain env jac draws cfg seeds transTypes powers dampings override (Conn.connect file) =
      sweepSeeds env jac draws cfg (settings transTypes powers dampings) override seeds c := h1 _
  have hnil : rs = [] := by
    refine List.eq_nil_iff_forall_not_mem.2 fun r hr => ?_
    obtain ⟨seed, hs, data, hd, s, hss, ran, hmem, hrun⟩ := g' r hr
    simp only [settings, List.mem_flatMap, List.mem_map] at hss
    obtain ⟨t, ht, p, hp, d, hdm, rfl⟩ := hss
    rcases hno seed hs data hd t ht p hp d hdm with ⟨ho, hm⟩ | hn
    · rcases hrun with hrun | hrun
      · simp [ho] at hrun
      · exact hrun hm
    · rw [powerRows_nil seed (hn ran)] at hmem
      simp at hmem
  rw [e, g hnil, h2.2]
  refine ⟨tabs_dyn hne _, tabs_exp _, fun n h1 h2 => ?_⟩
  unfold tabs
  rw [Function.update_of_ne h2, Function.update_of_ne h1]

/-- **C49.** In contrast, a setting that completes an iteration makes everything written so far durable. -/
theorem C49_iteration_commits (env : Env) (jac : Jac) (draw : Draw) (cfg : Config) (x y : List Arr) (seed : ℤ) (s : Setting)
    (c : Conn) (rows : List Row) (hc : c.work cfg.expTable = some (expTable rows))
    (h : ¬ NoIteration env jac draw cfg x y s) :
    (powerSweep env jac draw cfg x y seed s c).2.saved = (powerSweep env jac draw cfg x y seed s c).2.work := by
  rw [powerSweep_run env jac draw cfg x y seed s hc]
  show (commitRows _ _ _ _).saved = (commitRows _ _ _ _).work
  rw [commitRows_saved hc, commitRows_work hc, if_neg]
  unfold NoIteration at h
  unfold powerRows
  rcases hn : powerSweepNodes env jac draw cfg y s ⟨fun _ => Node.init 0 0, 0⟩ with ⟨⟨e⟩ | ⟨nodes⟩, h1⟩
  · rw [hn] at h; simp at h
  · rw [hn] at h
    simp only [not_or, not_exists] at h ⊢
    obtain ⟨n1, n2, n3⟩ := h
    obtain ⟨n, hn'⟩ := Nat.exists_eq_succ_of_ne_zero n1
    rw [hn', Nat.succ_eq_add_one]
    unfold epRows
    cases ha : (epFwdBack env nodes h1).1 with
    | error e => exact absurd ha (n2 e)
    | ok u =>
      cases hb : Metrics.nodeMetrics env (epFwdBack env nodes h1).2 nodes x with
      | error e => exact absurd hb (n3 e)
      | ok rl => simp

-- no iterations asked for: the data of seeds 7 and 8 is not in the file at the end
example (jac : Jac) (draws : Draws) :
    (sweepMain calmEnv jac draws (demoConfig 0) [7, 8] ["UT", "TT"] [1, 1 / 2] [1] false (Conn.connect fun _ => none)).2.saved "SIM" =
      some (dynTable []) :=
  (C49_simulation_lost calmEnv jac draws (demoConfig 0) (by simp [demoConfig]) [7, 8] ["UT", "TT"] [1, 1 / 2] [1] false
    (fun _ => none) [] [] ⟨.inr ⟨rfl, rfl⟩, .inr ⟨rfl, rfl⟩⟩ fun seed _ data _ t _ p _ d _ => .inr fun ran => by
      unfold NoIteration
      split
      · trivial
      · exact .inl rfl).1

/-! ## C50 -/

/-- **C50.** A setting is run iff `override` is given or no row with its transform, seed, power, damping and iteration fifty is stored;
a skipped setting changes nothing. -/
theorem C50_skip_iff_stored (env : Env) (jac : Jac) (draw : Draw) (cfg : Config) (x y : List Arr) (seed : ℤ) (override : Bool)
    (s : Setting) (c : Conn) (rows : List Row) (hc : c.work cfg.expTable = some (expTable rows)) :
    (override = false ∧ (∃ r ∈ rows, r.take 5 = [.text s.transId, .num seed, .num 50, .num s.power, .num s.damping]) →
      sweepSetting env jac draw cfg x y seed override s c = (.ok false, c)) ∧
    (override = true ∨ (¬ ∃ r ∈ rows, r.take 5 = [.text s.transId, .num seed, .num 50, .num s.power, .num s.damping]) →
      (sweepSetting env jac draw cfg x y seed override s c).2 = (powerSweep env jac draw cfg x y seed s c).2 ∧
      (sweepSetting env jac draw cfg x y seed override s c).1 ≠ .ok false) := by
  refine ⟨fun ⟨ho, hm⟩ => ?_, fun h => ?_⟩
  · subst ho
    exact sweepSetting_skip env jac draw cfg x y seed s hc hm
  · rw [sweepSetting_run env jac draw cfg x y seed override s hc h, powerSweep_run env jac draw cfg x y seed s hc]
    refine ⟨rfl, ?_⟩
    generalize (powerRows env jac draw cfg x y seed s).2 = o
    cases o with
    | ok u => simp [swallow]
    | error e => unfold swallow; simp only; split <;> simp

/-- **C50.** With fewer than fifty iterations a sweep never stores a row that would make a later sweep skip anything. -/
theorem C50_short_runs_never_mark (env : Env) (jac : Jac) (draws : Draws) (cfg : Config) (hne : cfg.dynTable ≠ cfg.expTable)
    (seeds : List ℤ) (transTypes : List String) (powers dampings : List ℝ) (override : Bool) (hiter : cfg.numIter < 50)
    (file : Tables) (drows erows : List Row) (h : Holds cfg file (drows, erows)) (seed : ℤ) (s : Setting)
    (hno : ¬ ∃ r ∈ erows, Marks seed s r) :
    ∃ erows', (sweepMain env jac draws cfg seeds transTypes powers dampings override (Conn.connect file)).2.work cfg.expTable =
        some (expTable erows') ∧ ¬ ∃ r ∈ erows', Marks seed s r := by
  obtain ⟨c, h1, h2, -⟩ := create_run hne h
  obtain ⟨ds, rs, g, -, g'⟩ := grow_sweep (base := file) hne env jac draws (settings transTypes powers dampings) override seeds seeds
    (List.Subset.refl _) c (drows, erows) h2.1
  have e : sweepMain env jac draws cfg seeds transTypes powers dampings override (Conn.connect file) =
      sweepSeeds env jac draws cfg (settings transTypes powers dampings) override seeds c := h1 _
  rw [e, g]
  refine ⟨_, tabs_exp _, fun ⟨r, hr, hm⟩ => ?_⟩
  rcases mem_addRows hr with hr | hr
  · exact hno ⟨r, hr, hm⟩
  · obtain ⟨seed', hs, data, hd, s', hss, ran, hmem, -⟩ := g' r hr
    obtain ⟨i, hi, rfl⟩ := List.mem_iff_getElem.1 hmem
    have hlen := (powerRows_length env jac (draws seed' ran) cfg (data.map Prod.fst) (data.map Prod.snd) seed' s').1
    obtain ⟨a, b, e⟩ := powerRows_get env jac (draws seed' ran) cfg (data.map Prod.fst) (data.map Prod.snd) seed' s' i _
      (List.getElem?_eq_getElem hi)
    rw [e] at hm
    have hi' : (i : ℝ) + 1 = 50 := by
      simp [Marks, expRow] at hm
      exact hm.2.2.1
    have : i + 1 = 50 := by exact_mod_cast hi'
    omega

example (jac : Jac) (draws : Draws) (s : Setting) :
    ∃ erows', (sweepMain calmEnv jac draws (demoConfig 49) [7, 8] ["UT"] [1] [1] false (Conn.connect fun _ => none)).2.work "EXP" =
        some (expTable erows') ∧ ¬ ∃ r ∈ erows', Marks 7 s r :=
  C50_short_runs_never_mark calmEnv jac draws (demoConfig 49) (by simp [demoConfig]) _ _ _ _ _ (by simp [demoConfig]) _ [] []
    ⟨.inr ⟨rfl, rfl⟩, .inr ⟨rfl, rfl⟩⟩ 7 s (by simp)

end Verif
