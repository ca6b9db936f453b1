import Verif.Lemmas.EpTurn
import Verif.Props.Database

/-!
# The sweep of `Experiments/EP_Sweep_BearingsOnly.py`: C91
-/

namespace Verif

/-- The dict made from the named tuple `exp_data`. -/
def turnTuple (tr : String) (seed : ℤ) (it power damping : ℝ) (quantity a b : Cell) : Db.Dict :=
  [("Transform", .text tr), ("Quantity", quantity), ("Seed", .num seed), ("Iter", .num it), ("Power", .num power),
    ("Damping", .num damping), ("RMSE", a), ("NLL", b)]

/-- **C91.** `ep_iterations` offers three rows per completed pass (position, velocity, angle, in this order), with the metrics of the
nodes after that pass, and commits the three together before the next pass.  It returns after `max_iter` passes; an exception comes from
the first pass (or metrics of a pass) that fails, and then exactly the rows of the passes before it are in the file.  Whenever the
process dies, the file is as before or holds the rows of a whole number of passes. -/
theorem C91_rows_logged (env : Env) (nodes : List Ref) (xs : List Arr) (name tr : String) (seed : ℤ) (it power damping : ℝ)
    (q a b : Cell) (maxIter : ℕ) (h : Heap) (c : Conn) (rows : List Row) (hc : c.work name = some (turnTable rows)) :
    ∃ (cs : List Metrics.Components) (res : Py Unit) (h' : Heap) (c' : Conn) (new : List Tables),
      let offered := fun j => ((cs.take j).zipIdx.map fun p => turnPass tr seed power damping (it + (p.2 + 1)) p.1).flatten
      EpTurn.epIterations env nodes maxIter (some xs) (turnTuple tr seed it power damping q a b) name ⟨h, c⟩ = (res, ⟨h', c'⟩) ∧
      c'.work = Function.update c.work name (some (turnTable (addRows 6 rows (offered cs.length)))) ∧
      c'.saved = (if cs = [] then c.saved else c'.work) ∧
      (∀ i, i < cs.length → (epFwdBack env nodes (passes env nodes i h)).1 = .ok () ∧
        ∃ m, cs[i]? = some m ∧ Metrics.bearingMetrics env (passes env nodes (i + 1) h) nodes xs = .ok m) ∧
      (res = .ok () ∧ cs.length = maxIter ∧ h' = passes env nodes maxIter h ∨
        ∃ e, res = .error e ∧ cs.length < maxIter ∧
          ((epFwdBack env nodes (passes env nodes cs.length h)).1 = .error e ∨
            (epFwdBack env nodes (passes env nodes cs.length h)).1 = .ok () ∧
            Metrics.bearingMetrics env (passes env nodes (cs.length + 1) h) nodes xs = .error e)) ∧
      c'.history = c.history ++ new ∧
      ∀ f ∈ new, f = c.saved ∨ ∃ j, 1 ≤ j ∧ j ≤ cs.length ∧
        f = Function.update c.work name (some (turnTable (addRows 6 rows (offered j)))) := by
  obtain ⟨h', e, e'⟩ := EpTurn.loop_run env nodes xs name tr seed power damping maxIter it q a b h c rows hc
  obtain ⟨s1, s2⟩ := EpTurn.passGroups_spec env nodes xs (turnPass tr seed power damping) maxIter it h
  obtain ⟨l1, l2⟩ := EpTurn.passGroups_length env nodes xs (turnPass tr seed power damping) maxIter it h
  obtain ⟨new, n1, n2, -⟩ := commitGroups_history (cols := EpTurn.cols) (k := 6) hc
    (EpTurn.passGroups env nodes xs (turnPass tr seed power damping) maxIter it h).1
  set gs := (EpTurn.passGroups env nodes xs (turnPass tr seed power damping) maxIter it h).1 with hgs
  choose hok cm hcm hget using s1
  have hG : ∃ cs : List Metrics.Components, cs.length = gs.length ∧
      (∀ i (hi : i < gs.length), cs[i]? = some (cm i hi)) :=
    ⟨List.ofFn fun i : Fin gs.length => cm i i.2, by simp, fun i hi => by simp [hi]⟩
  obtain ⟨cs, hl, hcs⟩ := hG
  have hall : gs = cs.zipIdx.map fun p => turnPass tr seed power damping (it + (p.2 + 1)) p.1 := by
    refine List.ext_getElem? fun i => ?_
    by_cases hi : i < gs.length
    · rw [hget i hi, List.getElem?_map, List.getElem?_zipIdx, hcs i hi]
      simp
    · rw [List.getElem?_eq_none (by omega), List.getElem?_eq_none (by simp; omega)]
  have htake : ∀ j, gs.take j = (cs.take j).zipIdx.map fun p => turnPass tr seed power damping (it + (p.2 + 1)) p.1 := by
    intro j
    refine List.ext_getElem? fun i => ?_
    conv_lhs => rw [hall]
    rw [← List.map_take]
    simp only [List.getElem?_map, List.getElem?_zipIdx, List.getElem?_take]
    split <;> simp
  have hflat : gs.flatten = ((cs.take cs.length).zipIdx.map fun p => turnPass tr seed power damping (it + (p.2 + 1)) p.1).flatten := by
    rw [← htake, hl, List.take_length]
  have hnil : cs = [] ↔ gs = [] := by rw [← List.length_eq_zero_iff, ← List.length_eq_zero_iff, hl]
  have hw := commitGroups_work (cols := EpTurn.cols) (k := 6) hc gs
  refine ⟨cs, _, h', _, new, e, ?_, ?_, fun i hi => ⟨hok i (by omega), _, hcs i (by omega), hcm i (by omega)⟩, ?_, n1,
    fun f hf => ?_⟩
  · rw [hw, hflat]; rfl
  · show (commitGroups _ _ _ _ _ gs).saved = if cs = [] then _ else (commitGroups _ _ _ _ _ gs).work
    rw [commitGroups_saved (cols := EpTurn.cols) (k := 6) hc gs, hw]
    by_cases hn : gs = []
    · rw [if_pos hn, if_pos (hnil.2 hn)]
    · rw [if_neg hn, if_neg fun h => hn (hnil.1 h)]
  · rw [hl]
    cases ho : (EpTurn.passGroups env nodes xs (turnPass tr seed power damping) maxIter it h).2 with
    | ok u => exact .inl ⟨rfl, l2.2 ho, e' ho⟩
    | error er =>
      refine .inr ⟨er, rfl, lt_of_le_of_ne l1 fun hl => ?_, s2 er ho⟩
      rw [l2.1 hl] at ho
      simp at ho
  · rcases n2 f hf with e | ⟨j, hj, hj', e⟩
    · exact .inl e
    · exact .inr ⟨j, hj, by omega, by rw [e, htake]; rfl⟩

/-- **C91.** Without true states nothing is written, whatever happens. -/
theorem C91_no_truth_no_rows (env : Env) (nodes : List Ref) (name : String) (maxIter : ℕ) (data : Db.Dict) (h : Heap) (c : Conn) :
    (EpTurn.epIterations env nodes maxIter none data name ⟨h, c⟩).2.conn = c :=
  EpTurn.loop_none env nodes name maxIter _ _

/-- **C91.** A setting is run iff `override` is given or no row of any quantity with its transform, seed, power, damping and iteration
fifty is stored; a skipped setting changes nothing; `LinAlgError` is swallowed. -/
theorem C91_skip_iff_stored (env : Env) (jac : Jac) (draw : Draw) (cfg : Config) (x y : List Arr) (seed : ℤ) (override : Bool)
    (s : Setting) (c : Conn) (rows : List Row) (hc : c.work cfg.expTable = some (turnTable rows)) :
    (override = false ∧ (∃ r ∈ rows, TurnMarks seed s r) →
      EpTurn.sweepSetting env jac draw cfg x y seed override s c = (.ok false, c)) ∧
    (override = true ∨ (¬ ∃ r ∈ rows, TurnMarks seed s r) →
      EpTurn.sweepSetting env jac draw cfg x y seed override s c =
        (match EpTurn.powerSweep env jac draw cfg x y seed s c with
          | (.ok _, c') => (.ok true, c')
          | (.error .linAlg, c') => (.ok true, c')
          | (.error e, c') => (.error e, c'))) := by
  refine ⟨fun ⟨ho, hm⟩ => ?_, fun h => ?_⟩
  · subst ho
    exact EpTurn.sweepSetting_skip env jac draw cfg x y seed s hc hm
  · rw [EpTurn.sweepSetting_run env jac draw cfg x y seed override s hc h, EpTurn.powerSweep_run env jac draw cfg x y seed s hc]
    generalize (EpTurn.powerGroups env jac draw cfg x y seed s).2 = o
    cases o with
    | ok u => rfl
    | error e => cases e <;> rfl

/-- **C91.** Whenever the process dies, and whatever is raised, the table of results in the file consists of the rows of whole passes
(position, velocity and angle of a pass together, from the same computation), given that it did so before; the rows that were there
stay, in front. -/
theorem C91_file_whole (env : Env) (jac : Jac) (draws : Draws) (cfg : Config) (hne : cfg.dynTable ≠ cfg.expTable)
    (seeds : List ℤ) (transTypes : List String) (powers dampings : List ℝ) (override : Bool) (file : Tables)
    (drows erows : List Row) (h : TurnHolds cfg file (drows, erows)) (hwhole : WholePasses erows) (f : Tables)
    (hf : f ∈ (EpTurn.main env jac draws cfg seeds transTypes powers dampings override (Conn.connect file)).2.history ∨
      f = (EpTurn.main env jac draws cfg seeds transTypes powers dampings override (Conn.connect file)).2.saved) :
    ∃ drows' erows', TurnHolds cfg f (drows', erows') ∧ drows <+: drows' ∧ erows <+: erows' ∧ WholePasses erows' := by
  obtain ⟨c, h1, h2, h3⟩ := EpTurn.create_run hne h
  obtain ⟨ds, gs, f', g1, g2, -, g4, new, g5, g6⟩ := EpTurn.grow_sweep (base := file) hne env jac draws
    (settings transTypes powers dampings) override seeds seeds (List.Subset.refl _) c (drows, erows) (drows, erows) h2
  have e : EpTurn.main env jac draws cfg seeds transTypes powers dampings override (Conn.connect file) =
      EpTurn.sweepSeeds env jac draws cfg (settings transTypes powers dampings) override seeds c := h1 _
  rw [e, g5, h3, g1.2] at hf
  have hold : ∀ st : St, TurnHolds cfg (gtabs EpTurn.cols 6 file cfg st) st := fun st => ⟨.inl (gtabs_dyn hne st), .inl (gtabs_exp st)⟩
  have part : ∀ i j, ∃ drows' erows', TurnHolds cfg (gtabs EpTurn.cols 6 file cfg
      (addRows 2 drows (ds.take i), addRows 6 erows (gs.take j).flatten)) (drows', erows') ∧ drows <+: drows' ∧ erows <+: erows' ∧
      WholePasses erows' := fun i j =>
    ⟨_, _, hold _, addRows_prefix .., addRows_prefix .., EpTurn.whole_adds hwhole fun g hg => g4 g (List.mem_of_mem_take hg)⟩
  have start : ∃ drows' erows', TurnHolds cfg (gtabs EpTurn.cols 6 file cfg (drows, erows)) (drows', erows') ∧ drows <+: drows' ∧
      erows <+: erows' ∧ WholePasses erows' := ⟨_, _, hold _, List.prefix_rfl, List.prefix_rfl, hwhole⟩
  rcases hf with hf | rfl
  · simp only [List.cons_append, List.nil_append, List.mem_cons] at hf
    rcases hf with rfl | rfl | rfl | hf
    · exact ⟨_, _, h, List.prefix_rfl, List.prefix_rfl, hwhole⟩
    · exact ⟨drows, erows, ⟨.inl (Function.update_self ..), by rw [Function.update_of_ne hne.symm]; exact h.2⟩, List.prefix_rfl,
        List.prefix_rfl, hwhole⟩
    · exact start
    · rcases g6 f hf with rfl | ⟨i, j, rfl⟩
      · exact start
      · exact part i j
  · rcases g2 with rfl | ⟨i, j, rfl⟩
    · exact start
    · exact part i j

/-- **C91.** If a setting is skipped in a table of whole passes, all three quantities of iteration fifty are stored. -/
theorem C91_skipped_is_complete (seed : ℤ) (s : Setting) (rows : List Row) (hwhole : WholePasses rows)
    (h : ∃ r ∈ rows, TurnMarks seed s r) :
    ∃ m : Metrics.Components, ∀ r ∈ turnPass s.transId seed s.power s.damping 50 m, r ∈ rows := by
  obtain ⟨gs, rfl, hg⟩ := hwhole
  obtain ⟨r, hr, q, e⟩ := h
  obtain ⟨g, hgm, hrg⟩ := List.mem_flatten.1 hr
  obtain ⟨tr, sd, p, d, it, m, rfl⟩ := hg g hgm
  have key : tr = s.transId ∧ sd = seed ∧ it = 50 ∧ p = s.power ∧ d = s.damping := by
    simp only [turnPass, List.mem_cons, List.not_mem_nil, or_false] at hrg
    rcases hrg with rfl | rfl | rfl <;> (simp [turnRow] at e; exact ⟨e.1, e.2.2.1, e.2.2.2.1, e.2.2.2.2.1, e.2.2.2.2.2⟩)
  obtain ⟨rfl, rfl, rfl, rfl, rfl⟩ := key
  exact ⟨m, fun r hr => List.mem_flatten.2 ⟨_, hgm, hr⟩⟩

/-- **C91.** A sweep, also with `override`, keeps all rows of both tables, in place; no second row gets an existing key. -/
theorem C91_override_keeps_rows (env : Env) (jac : Jac) (draws : Draws) (cfg : Config) (hne : cfg.dynTable ≠ cfg.expTable)
    (seeds : List ℤ) (transTypes : List String) (powers dampings : List ℝ) (override : Bool) (file : Tables)
    (drows erows : List Row) (h : TurnHolds cfg file (drows, erows)) :
    ∃ drows' erows',
      (EpTurn.main env jac draws cfg seeds transTypes powers dampings override (Conn.connect file)).2.work cfg.dynTable =
        some (dynTable drows') ∧
      (EpTurn.main env jac draws cfg seeds transTypes powers dampings override (Conn.connect file)).2.work cfg.expTable =
        some (turnTable erows') ∧
      drows <+: drows' ∧ erows <+: erows' ∧ (Keyed 2 drows → Keyed 2 drows') ∧ (Keyed 6 erows → Keyed 6 erows') := by
  obtain ⟨c, h1, h2, -⟩ := EpTurn.create_run hne h
  obtain ⟨ds, gs, f', g1, -⟩ := EpTurn.grow_sweep (base := file) hne env jac draws
    (settings transTypes powers dampings) override seeds seeds (List.Subset.refl _) c (drows, erows) (drows, erows) h2
  have e : EpTurn.main env jac draws cfg seeds transTypes powers dampings override (Conn.connect file) =
      EpTurn.sweepSeeds env jac draws cfg (settings transTypes powers dampings) override seeds c := h1 _
  rw [e, g1.1]
  exact ⟨_, _, gtabs_dyn hne _, gtabs_exp _, addRows_prefix .., addRows_prefix .., fun h => addRows_keyed h _,
    fun h => addRows_keyed h _⟩

/-- **C91.** Crash and restart: for results that depend only on the seed and the setting, and at most fifty iterations (or with
`override`), running the whole sweep again on any file the first run left behind gives the file of an uninterrupted run. -/
theorem C91_rerun_completes (env : Env) (jac : Jac) (draws : Draws) (hdraws : ∀ seed l l', draws seed l = draws seed l')
    (cfg : Config) (hne : cfg.dynTable ≠ cfg.expTable) (seeds : List ℤ) (transTypes : List String) (powers dampings : List ℝ)
    (override : Bool) (hiter : override = true ∨ cfg.numIter ≤ 50) (file : Tables) (drows erows : List Row)
    (h : TurnHolds cfg file (drows, erows)) (f : Tables)
    (hf : f ∈ (EpTurn.main env jac draws cfg seeds transTypes powers dampings override (Conn.connect file)).2.history) :
    (EpTurn.main env jac draws cfg seeds transTypes powers dampings override (Conn.connect f)).2.saved =
      (EpTurn.main env jac draws cfg seeds transTypes powers dampings override (Conn.connect file)).2.saved := by
  set bs := EpTurn.sweepBlocks env jac draws cfg (settings transTypes powers dampings) override seeds with hbs
  have himpl : ∀ base, GImpl EpTurn.cols 6 base cfg
      (EpTurn.sweepSeeds env jac draws cfg (settings transTypes powers dampings) override seeds) bs :=
    fun base => EpTurn.impl_sweep hne env jac draws hdraws _ override seeds
  -- a run from any file, in terms of the plan
  have run : ∀ (file : Tables) (st : St), TurnHolds cfg file st →
      (EpTurn.main env jac draws cfg seeds transTypes powers dampings override (Conn.connect file)).2.saved =
        gtabs EpTurn.cols 6 file cfg (gexec 6 bs (st, st)).2 ∧
      ∀ f ∈ (EpTurn.main env jac draws cfg seeds transTypes powers dampings override (Conn.connect file)).2.history,
        f = file ∨ f = Function.update file cfg.dynTable (some (dynTable st.1)) ∨ f = gtabs EpTurn.cols 6 file cfg st ∨
          ∃ g, GFiles 6 bs st g ∧ f = gtabs EpTurn.cols 6 file cfg g := by
    intro file st h
    obtain ⟨c, h1, h2, h3⟩ := EpTurn.create_run hne h
    have e : EpTurn.main env jac draws cfg seeds transTypes powers dampings override (Conn.connect file) =
        EpTurn.sweepSeeds env jac draws cfg (settings transTypes powers dampings) override seeds c := h1 _
    obtain ⟨r1, new, r2, r3⟩ := himpl file c st st h2
    rw [e]
    refine ⟨r1.2, fun f hf => ?_⟩
    rw [r2, h3] at hf
    simp only [List.cons_append, List.nil_append, List.mem_cons] at hf
    rcases hf with hf | hf | hf | hf
    · exact .inl hf
    · exact .inr (.inl hf)
    · exact .inr (.inr (.inl hf))
    · exact .inr (.inr (r3 f hf))
  have htabs : ∀ g : St, TurnHolds cfg (gtabs EpTurn.cols 6 file cfg g) g := fun g => ⟨.inl (gtabs_dyn hne g), .inl (gtabs_exp g)⟩
  have hover : ∀ g st : St, gtabs EpTurn.cols 6 (gtabs EpTurn.cols 6 file cfg g) cfg st = gtabs EpTurn.cols 6 file cfg st := fun g st => by
    show Function.update (Function.update (gtabs EpTurn.cols 6 file cfg g) cfg.dynTable (some (dynTable st.1))) cfg.expTable _ = _
    rw [gtabs_update_dyn hne g st.1, gtabs_update_exp]
  obtain ⟨s0, hh⟩ := run file _ h
  rcases hh f hf with rfl | rfl | rfl | ⟨g, hg, rfl⟩
  · rfl
  · have hH : TurnHolds cfg (Function.update file cfg.dynTable (some (dynTable drows))) (drows, erows) :=
      ⟨.inl (Function.update_self ..), by rw [Function.update_of_ne hne.symm]; exact h.2⟩
    rw [(run _ _ hH).1, s0]
    unfold gtabs
    rw [Function.update_idem]
  · rw [(run _ _ (htabs _)).1, s0, hover]
  · rw [(run _ _ (htabs _)).1, s0, hover,
      gexec_rerun hg (EpTurn.sweepBlocks_good env jac draws cfg _ override hiter seeds) (drows, erows)]

/-! ## Cases -/

-- starting from an empty database, with transforms whose draws depend on what was run
example (jac : Jac) (draws : Draws) (f : Tables)
    (hf : f ∈ (EpTurn.main calmEnv jac draws (demoConfig 50) [7, 8] ["UT", "MCT"] [1, 1 / 2] [1] false
      (Conn.connect fun _ => none)).2.history) :
    ∃ drows erows, TurnHolds (demoConfig 50) f (drows, erows) ∧ WholePasses erows := by
  obtain ⟨d, e, h1, -, -, h2⟩ := C91_file_whole calmEnv jac draws (demoConfig 50) (by simp [demoConfig]) _ _ _ _ false _ [] []
    ⟨.inr ⟨rfl, rfl⟩, .inr ⟨rfl, rfl⟩⟩ ⟨[], rfl, by simp⟩ f (.inl hf)
  exact ⟨d, e, h1, h2⟩

-- a crash during the first run, then a second run
example (jac : Jac) (draw : Draw) (f : Tables)
    (hf : f ∈ (EpTurn.main calmEnv jac (fun _ _ => draw) (demoConfig 50) [7, 8] ["UT", "TT"] [1, 1 / 2] [1] false
      (Conn.connect fun _ => none)).2.history) :
    (EpTurn.main calmEnv jac (fun _ _ => draw) (demoConfig 50) [7, 8] ["UT", "TT"] [1, 1 / 2] [1] false (Conn.connect f)).2.saved =
      (EpTurn.main calmEnv jac (fun _ _ => draw) (demoConfig 50) [7, 8] ["UT", "TT"] [1, 1 / 2] [1] false
        (Conn.connect fun _ => none)).2.saved :=
  C91_rerun_completes calmEnv jac _ (fun _ _ _ => rfl) (demoConfig 50) (by simp [demoConfig]) _ _ _ _ false (.inr le_rfl) _ [] []
    ⟨.inr ⟨rfl, rfl⟩, .inr ⟨rfl, rfl⟩⟩ f hf

-- one stored pass of iteration fifty: the setting is skipped, another damping is not
example (jac : Jac) (draw : Draw) (m : Metrics.Components) (x y : List Arr) :
    (∀ c, c.work "EXP" = some (turnTable (turnPass "UT" 7 1 1 50 m)) →
      EpTurn.sweepSetting calmEnv jac draw (demoConfig 50) x y 7 false ⟨"UT", 1, 1⟩ c = (.ok false, c)) ∧
    ¬ ∃ r ∈ turnPass "UT" 7 1 1 50 m, TurnMarks 7 ⟨"UT", 1, 1 / 2⟩ r := by
  refine ⟨fun c hc => (C91_skip_iff_stored calmEnv jac draw (demoConfig 50) x y 7 false ⟨"UT", 1, 1⟩ c _ hc).1
    ⟨rfl, _, List.mem_cons_self, _, rfl⟩, ?_⟩
  rintro ⟨r, hr, q, e⟩
  simp only [turnPass, List.mem_cons, List.not_mem_nil, or_false] at hr
  rcases hr with rfl | rfl | rfl <;> simp [turnRow] at e

end Verif
