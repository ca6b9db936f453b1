import Verif.Spec.EpTurn
import Verif.Model.EpTurn
import Verif.Lemmas.Groups

/-! `Experiments/EP_Sweep_BearingsOnly.py` in terms of groups of rows. -/

namespace Verif

namespace EpTurn

theorem turnTable_eq (rows : List Row) : turnTable rows = keyedTable cols 6 rows := rfl

theorem cols_nodup : cols.Nodup := by decide

/-- The dict `exp_data`. -/
def dict (tr quantity seed it power damping a b : Cell) : Db.Dict :=
  [("Transform", tr), ("Quantity", quantity), ("Seed", seed), ("Iter", it), ("Power", power), ("Damping", damping), ("RMSE", a),
    ("NLL", b)]

/-- The groups of rows `ep_iterations` offers, one per pass, and how it ends; `mk iter metrics` builds a group. -/
noncomputable def passGroups (env : Env) (nodes : List Ref) (xs : List Arr) (mk : ℝ → Metrics.Components → List Row) :
    ℕ → ℝ → Heap → List (List Row) × Py Unit
  | 0, _, _ => ([], .ok ())
  | n + 1, it, h =>
    match (epFwdBack env nodes h).1 with
    | .error e => ([], .error e)
    | .ok () =>
      match Metrics.bearingMetrics env (epFwdBack env nodes h).2 nodes xs with
      | .error e => ([], .error e)
      | .ok c =>
        (mk (it + 1) c :: (passGroups env nodes xs mk n (it + 1) (epFwdBack env nodes h).2).1,
          (passGroups env nodes xs mk n (it + 1) (epFwdBack env nodes h).2).2)

theorem turnRow_for (tr : String) (seed : ℤ) (power damping it : ℝ) (q : String) (a b : ℝ) :
    RowFor cols 6 (turnRow tr seed power damping it q a b) := ⟨rfl, by simp [turnRow]⟩

theorem storeLosses_run (table tr : String) (seed : ℤ) (power damping it : ℝ) (l : List (String × ℝ × ℝ)) :
    ∀ (q a b : Cell) (c : Conn) (rows : List Row), c.work table = some (keyedTable cols 6 rows) →
    ∃ q' a' b', storeLosses table l (dict (.text tr) q (.num seed) (.num it) (.num power) (.num damping) a b) c =
      (.ok (dict (.text tr) q' (.num seed) (.num it) (.num power) (.num damping) a' b'),
        putRows cols 6 table c rows (l.map fun p => turnRow tr seed power damping it p.1 p.2.1 p.2.2)) := by
  induction l with
  | nil => exact fun q a b c rows _ => ⟨q, a, b, rfl⟩
  | cons p l ih =>
    obtain ⟨key, r, n⟩ := p
    intro q a b c rows hc
    have hi : insertExperimentData table (dict (.text tr) (.text key) (.num seed) (.num it) (.num power) (.num damping) (.num r) (.num n)) c =
        (.ok (), c.put table (keyedTable cols 6 (addRow 6 rows (turnRow tr seed power damping it key r n)))) :=
      insert_run hc (keyed_insert cols_nodup (by decide) rows (turnRow_for tr seed power damping it key r n))
    obtain ⟨q', a', b', e⟩ := ih (.text key) (.num r) (.num n)
      (c.put table (keyedTable cols 6 (addRow 6 rows (turnRow tr seed power damping it key r n)))) _ (Function.update_self ..)
    refine ⟨q', a', b', ?_⟩
    unfold storeLosses
    have hd : (((dict (.text tr) q (.num seed) (.num it) (.num power) (.num damping) a b).set "RMSE" (.num r)).set "NLL"
        (.num n)).set "Quantity" (.text key) =
        dict (.text tr) (.text key) (.num seed) (.num it) (.num power) (.num damping) (.num r) (.num n) := by
      simp [dict, Db.Dict.set]
    simp only [hd]
    rw [PyM.bind_ok hi, e]
    rfl

theorem loop_run (env : Env) (nodes : List Ref) (xs : List Arr) (table tr : String) (seed : ℤ) (power damping : ℝ) (n : ℕ) :
    ∀ (it : ℝ) (q a b : Cell) (h : Heap) (c : Conn) (rows : List Row), c.work table = some (keyedTable cols 6 rows) →
      ∃ h', loop env nodes (some xs) table n (dict (.text tr) q (.num seed) (.num it) (.num power) (.num damping) a b) ⟨h, c⟩ =
        ((passGroups env nodes xs (turnPass tr seed power damping) n it h).2,
          ⟨h', commitGroups cols 6 table c rows (passGroups env nodes xs (turnPass tr seed power damping) n it h).1⟩) ∧
        ((passGroups env nodes xs (turnPass tr seed power damping) n it h).2 = .ok () → h' = passes env nodes n h) := by
  induction n with
  | zero => intro it q a b h c rows _; exact ⟨h, rfl, fun _ => rfl⟩
  | succ n ih =>
    intro it q a b h c rows hc
    unfold loop passGroups
    cases hp : epFwdBack env nodes h with
    | mk res h1 =>
    cases res with
    | error e =>
      refine ⟨h1, ?_, fun h => by simp at h⟩
      exact PyM.bind_error (s' := (⟨h1, c⟩ : World)) (by rw [onHeap_run, hp]) _
    | ok _ =>
      rw [PyM.bind_ok (s' := (⟨h1, c⟩ : World)) (a := ()) (by rw [onHeap_run, hp])]
      have hd : Db.Dict.incr (dict (.text tr) q (.num seed) (.num it) (.num power) (.num damping) a b) "Iter" =
          .ok (dict (.text tr) q (.num seed) (.num (it + 1)) (.num power) (.num damping) a b) := by
        simp [Db.Dict.incr, dict, Db.Dict.item, Db.Dict.set, List.lookup]
      simp only [hd, PyM.lift_ok_bind, PyM.get_bind]
      cases hm : Metrics.bearingMetrics env h1 nodes xs with
      | error e => exact ⟨h1, PyM.bind_error (s' := (⟨h1, c⟩ : World)) rfl _, fun h => by simp at h⟩
      | ok cm =>
        rw [PyM.lift_bind_eq (a := cm) rfl]
        obtain ⟨q', a', b', e⟩ := storeLosses_run table tr seed power damping (it + 1) (losses cm) q a b c rows hc
        have hg : ((losses cm).map fun p => turnRow tr seed power damping (it + 1) p.1 p.2.1 p.2.2) =
            turnPass tr seed power damping (it + 1) cm := rfl
        rw [hg] at e
        rw [PyM.bind_ok (s' := (⟨h1, putRows cols 6 table c rows (turnPass tr seed power damping (it + 1) cm)⟩ : World))
          (by rw [onConn_run, e])]
        rw [PyM.bind_ok (a := ()) (by rw [onConn_run, commit_run])]
        obtain ⟨h', e, e'⟩ := ih (it + 1) q' a' b' h1
          (putRows cols 6 table c rows (turnPass tr seed power damping (it + 1) cm)).sync
          (addRows 6 rows (turnPass tr seed power damping (it + 1) cm)) (by rw [putSync_work hc, Function.update_self])
        refine ⟨h', e, fun hok => ?_⟩
        rw [passes_succ, hp]
        exact e' hok

theorem loop_none (env : Env) (nodes : List Ref) (table : String) (n : ℕ) (data : Db.Dict) (w : World) :
    (loop env nodes none table n data w).2.conn = w.conn := by
  induction n generalizing w with
  | zero => rfl
  | succ n ih =>
    unfold loop
    rw [PyM.bind_run]
    split
    · next a s' hs => rw [ih]; rw [onHeap_run] at hs; rw [← (Prod.mk.inj hs).2]
    · next e s' hs => rw [onHeap_run] at hs; rw [← (Prod.mk.inj hs).2]

theorem passGroups_length (env : Env) (nodes : List Ref) (xs : List Arr) (mk : ℝ → Metrics.Components → List Row) (n : ℕ) (it : ℝ)
    (h : Heap) : (passGroups env nodes xs mk n it h).1.length ≤ n ∧
      ((passGroups env nodes xs mk n it h).1.length = n ↔ (passGroups env nodes xs mk n it h).2 = .ok ()) := by
  induction n generalizing it h with
  | zero => simp [passGroups]
  | succ n ih =>
    unfold passGroups
    split
    · simp
    · split
      · simp
      · next c _ => simpa using ih (it + 1) _

/-- The groups are those of the passes up to the end or to the first failure. -/
theorem passGroups_spec (env : Env) (nodes : List Ref) (xs : List Arr) (mk : ℝ → Metrics.Components → List Row) (n : ℕ) (it : ℝ)
    (h : Heap) :
    (∀ i, i < (passGroups env nodes xs mk n it h).1.length → (epFwdBack env nodes (passes env nodes i h)).1 = .ok () ∧
      ∃ c, Metrics.bearingMetrics env (passes env nodes (i + 1) h) nodes xs = .ok c ∧
        (passGroups env nodes xs mk n it h).1[i]? = some (mk (it + (i + 1)) c)) ∧
    ∀ e, (passGroups env nodes xs mk n it h).2 = .error e →
      (epFwdBack env nodes (passes env nodes (passGroups env nodes xs mk n it h).1.length h)).1 = .error e ∨
        (epFwdBack env nodes (passes env nodes (passGroups env nodes xs mk n it h).1.length h)).1 = .ok () ∧
        Metrics.bearingMetrics env (passes env nodes ((passGroups env nodes xs mk n it h).1.length + 1) h) nodes xs = .error e := by
  induction n generalizing it h with
  | zero => simp [passGroups]
  | succ n ih =>
    unfold passGroups
    cases hp : (epFwdBack env nodes h).1 with
    | error e => exact ⟨by simp, fun e' he => .inl (by simpa [passes, hp] using he)⟩
    | ok u =>
      cases hm : Metrics.bearingMetrics env (epFwdBack env nodes h).2 nodes xs with
      | error e => exact ⟨by simp, fun e' he => .inr ⟨by simpa [passes] using hp, by simpa [passes, hm] using he⟩⟩
      | ok c =>
        obtain ⟨h1, h2⟩ := ih (it + 1) (epFwdBack env nodes h).2
        refine ⟨fun i hi => ?_, fun e he => ?_⟩
        · cases i with
          | zero => exact ⟨hp, c, hm, by simp⟩
          | succ i =>
            obtain ⟨a, c', b, d⟩ := h1 i (by simpa using hi)
            refine ⟨by rw [passes_succ]; exact a, c', by rw [passes_succ]; exact b, ?_⟩
            simp only [List.getElem?_cons_succ, d]
            congr 2; push_cast; ring
        · have := h2 e he
          simp only [List.length_cons]
          rw [passes_succ, passes_succ (n := _ + 1)]
          exact this

/-! ## `power_sweep` and single settings -/

/-- The groups `power_sweep` offers and how it ends. -/
noncomputable def powerGroups (env : Env) (jac : Jac) (draw : Draw) (cfg : Config) (x y : List Arr) (seed : ℤ) (s : Setting) :
    List (List Row) × Py Unit :=
  match powerSweepNodes env jac draw cfg y s ⟨fun _ => Node.init 0 0, 0⟩ with
  | (.error e, _) => ([], .error e)
  | (.ok nodes, h) => passGroups env nodes x (turnPass s.transId seed s.power s.damping) cfg.numIter 0 h

theorem powerSweep_run (env : Env) (jac : Jac) (draw : Draw) (cfg : Config) (x y : List Arr) (seed : ℤ) (s : Setting) {c : Conn}
    {rows : List Row} (hc : c.work cfg.expTable = some (keyedTable cols 6 rows)) :
    powerSweep env jac draw cfg x y seed s c =
      ((powerGroups env jac draw cfg x y seed s).2,
        commitGroups cols 6 cfg.expTable c rows (powerGroups env jac draw cfg x y seed s).1) := by
  unfold powerSweep powerGroups
  simp only
  cases hn : powerSweepNodes env jac draw cfg y s ⟨fun _ => Node.init 0 0, 0⟩ with
  | mk res h1 =>
  cases res with
  | error e =>
    rw [PyM.bind_error (s' := (⟨h1, c⟩ : World)) (e := e) (by rw [onHeap_run, hn])]
    rfl
  | ok nodes =>
    rw [PyM.bind_ok (s' := (⟨h1, c⟩ : World)) (a := nodes) (by rw [onHeap_run, hn])]
    obtain ⟨h', e, -⟩ := loop_run env nodes x cfg.expTable s.transId seed s.power s.damping cfg.numIter 0 .null (.num 0)
      (.num 0) h1 c rows hc
    have e' : epIterations env nodes cfg.numIter (some x) (expData s seed) cfg.expTable ⟨h1, c⟩ = _ := e
    rw [e']

theorem powerGroups_length (env : Env) (jac : Jac) (draw : Draw) (cfg : Config) (x y : List Arr) (seed : ℤ) (s : Setting) :
    (powerGroups env jac draw cfg x y seed s).1.length ≤ cfg.numIter ∧
      ((powerGroups env jac draw cfg x y seed s).1.length = cfg.numIter → cfg.numIter ≠ 0 →
        (powerGroups env jac draw cfg x y seed s).2 = .ok ()) := by
  unfold powerGroups
  split
  · exact ⟨Nat.zero_le _, fun h h' => absurd h.symm h'⟩
  · next nodes h _ =>
    obtain ⟨h1, h2⟩ := passGroups_length env nodes x (turnPass s.transId seed s.power s.damping) cfg.numIter 0 h
    exact ⟨h1, fun e _ => h2.1 e⟩

theorem powerGroups_get (env : Env) (jac : Jac) (draw : Draw) (cfg : Config) (x y : List Arr) (seed : ℤ) (s : Setting) (i : ℕ)
    (g : List Row) (hi : (powerGroups env jac draw cfg x y seed s).1[i]? = some g) :
    ∃ c, g = turnPass s.transId seed s.power s.damping (i + 1) c := by
  unfold powerGroups at hi
  split at hi
  · simp at hi
  · next nodes h _ =>
    have hlt := (List.getElem?_eq_some_iff.1 hi).1
    obtain ⟨-, c, -, e⟩ := (passGroups_spec env nodes x (turnPass s.transId seed s.power s.damping) cfg.numIter 0 h).1 i hlt
    rw [e] at hi
    exact ⟨c, by simpa using (Option.some.inj hi).symm⟩

theorem storedQuery_run {c : Conn} {table : String} {rows : List Row} (hc : c.work table = some (keyedTable cols 6 rows)) (seed : ℤ)
    (s : Setting) :
    ∃ l, storedQuery table seed s c = (.ok l, c) ∧ (l.length = 0 ↔ ¬ ∃ r ∈ rows, TurnMarks seed s r) := by
  classical
  unfold storedQuery Db.selectWhere
  rw [PyM.get_bind]
  simp only [hc]
  refine ⟨_, rfl, ?_⟩
  rw [List.length_eq_zero_iff, List.filter_eq_nil_iff]
  push Not
  refine forall₂_congr fun r hr => not_congr ?_
  simp only [List.all_cons, List.all_nil, Bool.and_true, Bool.and_eq_true, keyedTable, cols, Table.cell, TurnMarks]
  rcases r with _ | ⟨a', _ | ⟨b', _ | ⟨c', _ | ⟨d', _ | ⟨e', _ | ⟨f', q⟩⟩⟩⟩⟩⟩ <;> simp [List.lookup]
  tauto

theorem sweepSetting_skip (env : Env) (jac : Jac) (draw : Draw) (cfg : Config) (x y : List Arr) (seed : ℤ) (s : Setting) {c : Conn}
    {rows : List Row} (hc : c.work cfg.expTable = some (keyedTable cols 6 rows)) (h : ∃ r ∈ rows, TurnMarks seed s r) :
    sweepSetting env jac draw cfg x y seed false s c = (.ok false, c) := by
  obtain ⟨l, h1, h2⟩ := storedQuery_run hc seed s
  unfold sweepSetting
  rw [PyM.bind_ok h1]
  have : l.length ≠ 0 := fun e => h2.1 e h
  simp [PyM.tryExcept, this]

theorem sweepSetting_run (env : Env) (jac : Jac) (draw : Draw) (cfg : Config) (x y : List Arr) (seed : ℤ) (override : Bool)
    (s : Setting) {c : Conn} {rows : List Row} (hc : c.work cfg.expTable = some (keyedTable cols 6 rows))
    (h : override = true ∨ ¬ ∃ r ∈ rows, TurnMarks seed s r) :
    sweepSetting env jac draw cfg x y seed override s c =
      (swallow (powerGroups env jac draw cfg x y seed s).2,
        commitGroups cols 6 cfg.expTable c rows (powerGroups env jac draw cfg x y seed s).1) := by
  obtain ⟨l, h1, h2⟩ := storedQuery_run hc seed s
  unfold sweepSetting
  rw [PyM.bind_ok h1]
  have hp := powerSweep_run env jac draw cfg x y seed s hc
  have hb : PyM.tryExcept (do powerSweep env jac draw cfg x y seed s; return true) .linAlg (pure true) c =
      (swallow (powerGroups env jac draw cfg x y seed s).2,
        commitGroups cols 6 cfg.expTable c rows (powerGroups env jac draw cfg x y seed s).1) := by
    unfold PyM.tryExcept
    cases ho : (powerGroups env jac draw cfg x y seed s).2 with
    | ok u =>
      rw [ho] at hp
      rw [PyM.bind_ok hp]
      rfl
    | error e =>
      rw [ho] at hp
      rw [PyM.bind_error hp]
      unfold swallow
      by_cases he : e = .linAlg
      · simp [he]
      · simp [he]
  by_cases hov : override = true
  · simp only [hov, if_true]
    exact hb
  · have hl : l.length = 0 := h2.2 (h.resolve_left hov)
    simp only [hov, hl, if_true]
    exact hb

/-! ## Plans -/

variable {base : Tables} {cfg : Config}

/-- The plan of one setting. -/
noncomputable def settingBlock (env : Env) (jac : Jac) (draw : Draw) (cfg : Config) (x y : List Arr) (seed : ℤ) (override : Bool)
    (s : Setting) : GBlock :=
  .set (fun r => override = false ∧ TurnMarks seed s r) (powerGroups env jac draw cfg x y seed s).1
    (ends (swallow (powerGroups env jac draw cfg x y seed s).2))

theorem impl_setting (env : Env) (jac : Jac) (draw : Draw) (x y : List Arr) (seed : ℤ) (override : Bool) (s : Setting)
    {K : Bool → PyM Conn Unit} {bs : List GBlock} (hK : ∀ b, GImpl cols 6 base cfg (K b) bs) :
    GImpl cols 6 base cfg (sweepSetting env jac draw cfg x y seed override s >>= K)
      (settingBlock env jac draw cfg x y seed override s :: bs) :=
  gimpl_setting (marks := fun r => override = false ∧ TurnMarks seed s r) (gs := (powerGroups env jac draw cfg x y seed s).1)
    (o := swallow (powerGroups env jac draw cfg x y seed s).2) (fun c rows hc hm => by
      obtain ⟨r, hr, ho, hmr⟩ := hm
      subst ho
      exact sweepSetting_skip env jac draw cfg x y seed s hc ⟨r, hr, hmr⟩)
    (fun c rows hc hm => sweepSetting_run env jac draw cfg x y seed override s hc (by
      by_cases ho : override = true
      · exact .inl ho
      · exact .inr fun ⟨r, hr, hmr⟩ => hm ⟨r, hr, by simpa using ho, hmr⟩)) hK

/-- The plan of the settings of one seed. -/
noncomputable def settingBlocks (env : Env) (jac : Jac) (draw : Draw) (cfg : Config) (x y : List Arr) (seed : ℤ)
    (override : Bool) (ss : List Setting) : List GBlock := ss.map (settingBlock env jac draw cfg x y seed override)

theorem impl_settings (env : Env) (jac : Jac) (draws : Draws) (x y : List Arr) (seed : ℤ)
    (hd : ∀ l l', draws seed l = draws seed l') (override : Bool) (ss : List Setting) {K : PyM Conn Unit} {bs : List GBlock}
    (hK : GImpl cols 6 base cfg K bs) (ran : List Setting) :
    GImpl cols 6 base cfg (do sweepSettings env jac draws cfg x y seed override ran ss; K)
      (settingBlocks env jac (draws seed []) cfg x y seed override ss ++ bs) := by
  induction ss generalizing ran with
  | nil => exact hK
  | cons s ss ih =>
    have := impl_setting env jac (draws seed []) x y seed override s (base := base) (cfg := cfg)
      (K := fun called => do
        sweepSettings env jac draws cfg x y seed override (if called then ran ++ [s] else ran) ss
        K) (bs := settingBlocks env jac (draws seed []) cfg x y seed override ss ++ bs) (fun b => ih _)
    intro c w f h
    have e : (do sweepSettings env jac draws cfg x y seed override ran (s :: ss); K : PyM Conn Unit) c =
        (sweepSetting env jac (draws seed []) cfg x y seed override s >>= fun called => do
          sweepSettings env jac draws cfg x y seed override (if called then ran ++ [s] else ran) ss
          K) c := by
      rw [hd [] ran]
      rw [PyM.bind_run, sweepSettings, PyM.bind_run, PyM.bind_run]
      rcases sweepSetting env jac (draws seed ran) cfg x y seed override s c with ⟨⟨e⟩ | ⟨a⟩, c'⟩
      · rfl
      · simp only [PyM.bind_run]
    rw [e]
    exact this c w f h

/-- The plan of a sweep. -/
noncomputable def sweepBlocks (env : Env) (jac : Jac) (draws : Draws) (cfg : Config) (ss : List Setting) (override : Bool) :
    List ℤ → List GBlock
  | [] => []
  | seed :: seeds =>
    match cfg.sim seed with
    | .error _ => [.set (fun _ => False) [] true]
    | .ok data =>
      .dyn (dynRows seed 0 data) ::
        if data = [] then [.set (fun _ => False) [] true]
        else settingBlocks env jac (draws seed []) cfg (data.map Prod.fst) (data.map Prod.snd) seed override ss ++
          sweepBlocks env jac draws cfg ss override seeds

theorem impl_sweep (hne : cfg.dynTable ≠ cfg.expTable) (env : Env) (jac : Jac) (draws : Draws)
    (hd : ∀ seed l l', draws seed l = draws seed l') (ss : List Setting) (override : Bool) (seeds : List ℤ) :
    GImpl cols 6 base cfg (sweepSeeds env jac draws cfg ss override seeds) (sweepBlocks env jac draws cfg ss override seeds) := by
  induction seeds with
  | nil => exact gimpl_pure
  | cons seed seeds ih =>
    unfold sweepSeeds sweepBlocks
    cases hs : cfg.sim seed with
    | error e => exact gimpl_stop e (fun c => rfl) []
    | ok data =>
      have key : GImpl cols 6 base cfg (if data = [] then PyM.raise .value
          else do
            sweepSettings env jac draws cfg (data.map Prod.fst) (data.map Prod.snd) seed override [] ss
            sweepSeeds env jac draws cfg ss override seeds)
          (if data = [] then [.set (fun _ => False) [] true]
            else settingBlocks env jac (draws seed []) cfg (data.map Prod.fst) (data.map Prod.snd) seed override ss ++
              sweepBlocks env jac draws cfg ss override seeds) := by
        split
        · exact gimpl_stop .value (fun c => rfl) []
        · exact impl_settings env jac draws _ _ seed (hd seed) override ss ih []
      exact gimpl_dyn hne data seed key

/-- With at most fifty iterations (or with the override flag) only the last pass of a setting can make the sweep skip it. -/
theorem settingBlock_good (env : Env) (jac : Jac) (draw : Draw) (cfg : Config) (x y : List Arr) (seed : ℤ) (override : Bool)
    (h : override = true ∨ cfg.numIter ≤ 50) (s : Setting) : (settingBlock env jac draw cfg x y seed override s).Good := by
  unfold settingBlock GBlock.Good
  rintro i g hi ⟨r, hr, ho, q, hm⟩
  have h50 : cfg.numIter ≤ 50 := h.resolve_left (by simp [ho])
  obtain ⟨c, rfl⟩ := powerGroups_get env jac draw cfg x y seed s i g hi
  have hi' : (i : ℝ) + 1 = 50 := by
    simp only [turnPass, List.mem_cons, List.not_mem_nil, or_false] at hr
    rcases hr with rfl | rfl | rfl <;> (simp [turnRow] at hm; exact hm.2)
  have hi50 : i + 1 = 50 := by exact_mod_cast hi'
  obtain ⟨l1, l2⟩ := powerGroups_length env jac draw cfg x y seed s
  have hlt : i < (powerGroups env jac draw cfg x y seed s).1.length := (List.getElem?_eq_some_iff.1 hi).1
  refine ⟨by omega, ?_⟩
  rw [l2 (by omega) (by omega)]
  rfl

theorem sweepBlocks_good (env : Env) (jac : Jac) (draws : Draws) (cfg : Config) (ss : List Setting) (override : Bool)
    (h : override = true ∨ cfg.numIter ≤ 50) (seeds : List ℤ) :
    ∀ b ∈ sweepBlocks env jac draws cfg ss override seeds, b.Good := by
  have hstop : (GBlock.set (fun _ => False) [] true).Good := by simp [GBlock.Good]
  induction seeds with
  | nil => simp [sweepBlocks]
  | cons seed seeds ih =>
    unfold sweepBlocks
    split
    · simpa using hstop
    · next data _ =>
      intro b hb
      rcases List.mem_cons.1 hb with rfl | hb
      · trivial
      · split at hb
        · rw [List.mem_singleton.1 hb]; exact hstop
        · rcases List.mem_append.1 hb with hb | hb
          · obtain ⟨s, _, rfl⟩ := List.mem_map.1 hb
            exact settingBlock_good _ _ _ _ _ _ _ _ h _
          · exact ih b hb

theorem create_run (hne : cfg.dynTable ≠ cfg.expTable) {file : Tables} {st : St} (h : TurnHolds cfg file st) :
    ∃ c, (∀ K : PyM Conn Unit, (do Db.createDynamicsTable cfg.dynTable; createExperimentTable cfg.expTable; K : PyM Conn Unit)
        (Conn.connect file) = K c) ∧ GRep cols 6 file cfg c st st ∧
      c.history = [file, Function.update file cfg.dynTable (some (dynTable st.1)), gtabs cols 6 file cfg st] := by
  obtain ⟨hd, he⟩ := h
  have h1 : Db.createDynamicsTable cfg.dynTable (Conn.connect file) = _ :=
    createTable_run (c := Conn.connect file) rfl hd
  refine ⟨_, fun K => (PyM.bind_ok h1 _).trans (PyM.bind_ok (createTable_run (rows := st.2) rfl ?_) _), ⟨rfl, rfl⟩, rfl⟩
  show Function.update file _ _ _ = _ ∨ Function.update file _ _ _ = _ ∧ _
  rw [Function.update_of_ne hne.symm]
  exact he

/-! ## Whole passes -/

/-- The group of one pass of one of the settings. -/
def IsPass (seeds : List ℤ) (ss : List Setting) (g : List Row) : Prop :=
  ∃ seed ∈ seeds, ∃ s ∈ ss, ∃ (i : ℕ) (c : Metrics.Components), g = turnPass s.transId seed s.power s.damping (i + 1) c

theorem grow_setting (env : Env) (jac : Jac) (draw : Draw) (x y : List Arr) (seed : ℤ) (override : Bool) (s : Setting)
    {seeds : List ℤ} {ss : List Setting} (h1 : seed ∈ seeds) (h2 : s ∈ ss) :
    GGrow cols 6 base cfg (IsPass seeds ss) (sweepSetting env jac draw cfg x y seed override s) := by
  refine ggrow_commit (gs := (powerGroups env jac draw cfg x y seed s).1) (fun g hg => ?_) fun c rows hc => ?_
  · obtain ⟨i, hi⟩ := List.mem_iff_getElem?.1 hg
    obtain ⟨cm, rfl⟩ := powerGroups_get env jac draw cfg x y seed s i g hi
    exact ⟨seed, h1, s, h2, i, cm, rfl⟩
  · by_cases hr : override = true ∨ ¬ ∃ q ∈ rows, TurnMarks seed s q
    · exact .inr (by rw [sweepSetting_run env jac draw cfg x y seed override s hc hr])
    · obtain ⟨h1, h2⟩ := not_or.1 hr
      have ho : override = false := by simpa using h1
      subst ho
      exact .inl (by rw [sweepSetting_skip env jac draw cfg x y seed s hc (not_not.1 h2)])

theorem grow_settings (env : Env) (jac : Jac) (draws : Draws) (x y : List Arr) (seed : ℤ) (override : Bool) {seeds : List ℤ}
    {ss' : List Setting} (h1 : seed ∈ seeds) (ss : List Setting) (h2 : ss ⊆ ss') (ran : List Setting) :
    GGrow cols 6 base cfg (IsPass seeds ss') (sweepSettings env jac draws cfg x y seed override ran ss) := by
  induction ss generalizing ran with
  | nil => exact ggrow_still fun _ => rfl
  | cons s ss ih =>
    exact ggrow_bind (grow_setting env jac (draws seed ran) x y seed override s h1 (h2 (by simp)))
      fun _ => ih (fun a ha => h2 (by simp [ha])) _

theorem grow_sweep (hne : cfg.dynTable ≠ cfg.expTable) (env : Env) (jac : Jac) (draws : Draws) (ss : List Setting) (override : Bool)
    (seeds' seeds : List ℤ) (hs : seeds ⊆ seeds') :
    GGrow cols 6 base cfg (IsPass seeds' ss) (sweepSeeds env jac draws cfg ss override seeds) := by
  induction seeds with
  | nil => exact ggrow_still fun _ => rfl
  | cons seed seeds ih =>
    unfold sweepSeeds
    cases hsim : cfg.sim seed with
    | error e => exact ggrow_still fun _ => rfl
    | ok data =>
      have key : GGrow cols 6 base cfg (IsPass seeds' ss) (do
          Db.insertDynamicsData cfg.dynTable data seed
          if data = [] then PyM.raise .value
          else do
            sweepSettings env jac draws cfg (data.map Prod.fst) (data.map Prod.snd) seed override [] ss
            sweepSeeds env jac draws cfg ss override seeds) := by
        refine ggrow_bind (ggrow_dyn hne data seed) fun _ => ?_
        split
        · exact ggrow_still fun _ => rfl
        · exact ggrow_bind (grow_settings env jac draws _ _ seed override (hs (by simp)) ss (List.Subset.refl _) [])
            fun _ => ih fun a ha => hs (by simp [ha])
      exact key

theorem turnRow_key {tr tr' : String} {seed seed' : ℤ} {p p' d d' it it' : ℝ} {q q' : String} {a b a' b' : ℝ}
    (h : (turnRow tr seed p d it q a b).take 6 = (turnRow tr' seed' p' d' it' q' a' b').take 6) :
    tr = tr' ∧ q = q' ∧ seed = seed' ∧ it = it' ∧ p = p' ∧ d = d' := by
  simpa [turnRow] using h

/-- Adding the rows of a pass to rows of whole passes. -/
theorem whole_add {rows : List Row} (h : WholePasses rows) (tr : String) (seed : ℤ) (p d it : ℝ) (c : Metrics.Components) :
    WholePasses (addRows 6 rows (turnPass tr seed p d it c)) := by
  obtain ⟨gs, rfl, hg⟩ := h
  by_cases hm : ∃ r ∈ gs.flatten, ∃ q a b, r.take 6 = (turnRow tr seed p d it q a b).take 6
  · obtain ⟨r, hr, q, a, b, e⟩ := hm
    rw [addRows_of_mem]
    · exact ⟨gs, rfl, hg⟩
    obtain ⟨g, hgm, hrg⟩ := List.mem_flatten.1 hr
    obtain ⟨tr', seed', p', d', it', c', rfl⟩ := hg g hgm
    have key : tr' = tr ∧ seed' = seed ∧ it' = it ∧ p' = p ∧ d' = d := by
      simp only [turnPass, List.mem_cons, List.not_mem_nil, or_false] at hrg
      rcases hrg with rfl | rfl | rfl <;>
      · obtain ⟨e1, -, e2, e3, e4, e5⟩ := turnRow_key e
        exact ⟨e1, e2, e3, e4, e5⟩
    obtain ⟨rfl, rfl, rfl, rfl, rfl⟩ := key
    intro r' hr'
    simp only [turnPass, List.mem_cons, List.not_mem_nil, or_false] at hr'
    rcases hr' with rfl | rfl | rfl
    · exact ⟨_, List.mem_flatten.2 ⟨_, hgm, List.mem_cons_self⟩, rfl⟩
    · exact ⟨_, List.mem_flatten.2 ⟨_, hgm, List.mem_cons_of_mem _ List.mem_cons_self⟩, rfl⟩
    · exact ⟨_, List.mem_flatten.2 ⟨_, hgm, List.mem_cons_of_mem _ (List.mem_cons_of_mem _ List.mem_cons_self)⟩, rfl⟩
  · have hq : ∀ q a b, ¬ ∃ r ∈ gs.flatten, r.take 6 = (turnRow tr seed p d it q a b).take 6 :=
      fun q a b ⟨r, hr, e⟩ => hm ⟨r, hr, q, a, b, e⟩
    refine ⟨gs ++ [turnPass tr seed p d it c], ?_, fun g hg' => ?_⟩
    · have step : ∀ (l : List Row) (q : String) (a b : ℝ), (∀ r ∈ l, r.take 6 ≠ (turnRow tr seed p d it q a b).take 6) →
          addRow 6 (gs.flatten ++ l) (turnRow tr seed p d it q a b) = gs.flatten ++ (l ++ [turnRow tr seed p d it q a b]) := by
        intro l q a b hl
        unfold addRow
        rw [if_neg, List.append_assoc]
        rintro ⟨r, hr, e⟩
        rcases List.mem_append.1 hr with hr | hr
        · exact hq q a b ⟨r, hr, e⟩
        · exact hl r hr e
      have s1 := step [] "position" c.posRmse c.posNll (by simp)
      have s2 := step [turnRow tr seed p d it "position" c.posRmse c.posNll] "velocity" c.velRmse c.velNll (by simp [turnRow])
      have s3 := step [turnRow tr seed p d it "position" c.posRmse c.posNll, turnRow tr seed p d it "velocity" c.velRmse c.velNll]
        "angle" c.angRmse c.angNll (by simp [turnRow])
      rw [List.append_nil, List.nil_append] at s1
      rw [List.cons_append, List.nil_append] at s2
      rw [turnPass, addRows_cons, addRows_cons, addRows_cons, addRows_nil, s1, s2, s3, List.flatten_append]
      rfl
    · rcases List.mem_append.1 hg' with hg' | hg'
      · exact hg g hg'
      · exact ⟨tr, seed, p, d, it, c, List.mem_singleton.1 hg'⟩

theorem whole_adds {rows : List Row} (h : WholePasses rows) {gs : List (List Row)} {seeds : List ℤ} {ss : List Setting}
    (hg : ∀ g ∈ gs, IsPass seeds ss g) : WholePasses (addRows 6 rows gs.flatten) := by
  induction gs generalizing rows with
  | nil => exact h
  | cons g gs ih =>
    obtain ⟨seed, -, s, -, i, c, rfl⟩ := hg g (by simp)
    rw [List.flatten_cons, addRows_append]
    exact ih (whole_add h ..) fun g hg' => hg g (by simp [hg'])

end EpTurn

end Verif
