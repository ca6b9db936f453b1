import Verif.Lemmas.Sweep

/-! Sweeps as sequences of insertions, and starting them again after a crash. -/

namespace Verif

/-! ## Single settings -/

/-- How the sweep continues after a setting ended with `o`: `LinAlgError` is swallowed. -/
def swallow (o : Py Unit) : Py Bool :=
  match o with
  | .ok _ => .ok true
  | .error e => if e = .linAlg then .ok true else .error e

theorem sweepSetting_skip (env : Env) (jac : Jac) (draw : Draw) (cfg : Config) (x y : List Arr) (seed : ℤ) (s : Setting) {c : Conn}
    {rows : List Row} (hc : c.work cfg.expTable = some (expTable rows)) (h : ∃ r ∈ rows, Marks seed s r) :
    sweepSetting env jac draw cfg x y seed false s c = (.ok false, c) := by
  obtain ⟨l, h1, h2⟩ := storedQuery_run hc seed s
  unfold sweepSetting
  rw [PyM.bind_ok h1]
  have : l.length ≠ 0 := fun e => h2.1 e h
  simp [PyM.tryExcept, this]

theorem sweepSetting_run (env : Env) (jac : Jac) (draw : Draw) (cfg : Config) (x y : List Arr) (seed : ℤ) (override : Bool)
    (s : Setting) {c : Conn} {rows : List Row} (hc : c.work cfg.expTable = some (expTable rows))
    (h : override = true ∨ ¬ ∃ r ∈ rows, Marks seed s r) :
    sweepSetting env jac draw cfg x y seed override s c =
      (swallow (powerRows env jac draw cfg x y seed s).2,
        commitRows cfg.expTable c rows (powerRows env jac draw cfg x y seed s).1) := by
  obtain ⟨l, h1, h2⟩ := storedQuery_run hc seed s
  unfold sweepSetting
  rw [PyM.bind_ok h1]
  have hp := powerSweep_run env jac draw cfg x y seed s hc
  have hb : PyM.tryExcept (do powerSweep env jac draw cfg x y seed s; return true) .linAlg (pure true) c =
      (swallow (powerRows env jac draw cfg x y seed s).2,
        commitRows cfg.expTable c rows (powerRows env jac draw cfg x y seed s).1) := by
    unfold PyM.tryExcept
    cases ho : (powerRows env jac draw cfg x y seed s).2 with
    | ok u =>
      rw [ho] at hp
      rw [PyM.bind_ok hp]
      rfl
    | error e =>
      rw [ho] at hp
      rw [PyM.bind_error hp]
      unfold swallow
      by_cases he : e = .linAlg
      · simp [he]
      · simp [he]
  by_cases hov : override = true
  · simp only [hov, if_true]
    exact hb
  · have hl : l.length = 0 := h2.2 (h.resolve_left hov)
    simp only [hov, hl, if_true]
    exact hb

/-! ## Simulated data -/

theorem dynRows_shape (seed : ℤ) (t : ℕ) (data : List (Arr × Arr)) : ∀ r ∈ dynRows seed t data, DynShape r := by
  induction data generalizing t with
  | nil => simp [dynRows]
  | cons p data ih =>
    obtain ⟨x, y⟩ := p
    intro r hr
    rcases List.mem_cons.1 hr with rfl | hr
    · exact ⟨_, _, _, _, rfl, by simp⟩
    · exact ih _ r hr

/-- Inserting simulated data: no commit, every entry of the history is the file as it was. -/
theorem insertDynamics_run (name : String) (seed : ℤ) (data : List (Arr × Arr)) (t : ℕ) {c : Conn} {rows : List Row}
    (hc : c.work name = some (dynTable rows)) :
    ∃ c', Db.insertDynamicsLoop name seed t data c = (.ok (), c') ∧
      c'.work = Function.update c.work name (some (dynTable (addRows 2 rows (dynRows seed t data)))) ∧ c'.saved = c.saved ∧
      ∃ k, c'.history = c.history ++ List.replicate k c.saved := by
  induction data generalizing t c rows with
  | nil => exact ⟨c, rfl, by simp [dynRows, ← hc], rfl, 0, by simp⟩
  | cons p data ih =>
    obtain ⟨x, y⟩ := p
    have hi := insert_run hc (dyn_insert rows (r := [.num seed, .num t, .array x, .array y]) ⟨_, _, _, _, rfl, by simp⟩)
    obtain ⟨c', h1, h2, h3, k, h4⟩ := ih (t + 1)
      (c := c.put name (dynTable (addRow 2 rows [.num seed, .num t, .array x, .array y])))
      (rows := addRow 2 rows [.num seed, .num t, .array x, .array y]) (Function.update_self ..)
    refine ⟨c', ?_, ?_, h3, k + 1, ?_⟩
    · unfold Db.insertDynamicsLoop
      exact (PyM.bind_ok hi _).trans h1
    · rw [h2]
      show Function.update (Function.update _ _ _) _ _ = _
      rw [Function.update_idem]; rfl
    · rw [h4]
      show (c.history ++ [c.saved]) ++ List.replicate k c.saved = _
      rw [List.append_assoc]; rfl

/-! ## Plans -/

/-- The rows of simulated data and of experiments. -/
abbrev St := List Row × List Row

/-- One part of a sweep: simulated rows, or the rows of a setting, skipped if a marking row is stored; `stop` ends the sweep. -/
inductive Block
  | dyn (rows : List Row)
  | set (marks : Row → Prop) (rows : List Row) (stop : Bool)

open Classical in
/-- Runs a plan on (work, saved). -/
noncomputable def exec : List Block → St × St → St × St
  | [], s => s
  | .dyn rs :: bs, (w, f) => exec bs ((addRows 2 w.1 rs, w.2), f)
  | .set m rs stop :: bs, (w, f) =>
    if ∃ r ∈ w.2, m r then exec bs (w, f)
    else if stop then ((w.1, addRows 5 w.2 rs), if rs = [] then f else (w.1, addRows 5 w.2 rs))
    else exec bs ((w.1, addRows 5 w.2 rs), if rs = [] then f else (w.1, addRows 5 w.2 rs))

/-- `g` is one of the contents the file has while the plan is run with work `w` (other than its first content). -/
inductive InFiles : List Block → St → St → Prop
  | dyn {rs bs w g} : InFiles bs (addRows 2 w.1 rs, w.2) g → InFiles (.dyn rs :: bs) w g
  | skip {m rs stop bs w g} : (∃ r ∈ w.2, m r) → InFiles bs w g → InFiles (.set m rs stop :: bs) w g
  | part {m rs stop bs w} (j : ℕ) : (¬ ∃ r ∈ w.2, m r) → 1 ≤ j → j ≤ rs.length →
      InFiles (.set m rs stop :: bs) w (w.1, addRows 5 w.2 (rs.take j))
  | later {m rs bs w g} : (¬ ∃ r ∈ w.2, m r) → InFiles bs (w.1, addRows 5 w.2 rs) g → InFiles (.set m rs false :: bs) w g

theorem InFiles.prefix {bs : List Block} {w g : St} (h : InFiles bs w g) : w.1 <+: g.1 ∧ w.2 <+: g.2 := by
  induction h with
  | dyn _ ih => exact ⟨(addRows_prefix 2 _ _).trans ih.1, ih.2⟩
  | skip _ _ ih => exact ih
  | part j _ _ _ => exact ⟨List.prefix_rfl, addRows_prefix 5 _ _⟩
  | later _ _ ih => exact ⟨ih.1, (addRows_prefix 5 _ _).trans ih.2⟩

theorem mem_addRows {k : ℕ} {rows rs : List Row} {r : Row} (h : r ∈ addRows k rows rs) : r ∈ rows ∨ r ∈ rs := by
  induction rs generalizing rows with
  | nil => exact .inl h
  | cons a rs ih =>
    rcases ih h with h | h
    · unfold addRow at h
      split at h
      · exact .inl h
      · rcases List.mem_append.1 h with h | h
        · exact .inl h
        · exact .inr (by simp [List.mem_singleton.1 h])
    · exact .inr (by simp [h])

/-- A marking row is always the last of its setting, and the sweep goes on after it. -/
def Block.Good : Block → Prop
  | .dyn _ => True
  | .set m rs stop => ∀ (i : ℕ) (r : Row), rs[i]? = some r → m r → i + 1 = rs.length ∧ stop = false

/-- Starting the plan again on a file left by a crash gives the same result. -/
theorem exec_rerun {bs : List Block} {w g : St} (h : InFiles bs w g) (hg : ∀ b ∈ bs, b.Good) (f : St) :
    exec bs (g, g) = exec bs (w, f) := by
  induction h generalizing f with
  | @dyn rs bs w g h ih =>
    have e : addRows 2 g.1 rs = g.1 := addRows_again h.prefix.1
    simp only [exec, e]
    exact ih (fun b hb => hg b (by simp [hb])) f
  | @skip m rs stop bs w g hm h ih =>
    have hm' : ∃ r ∈ g.2, m r := hm.imp fun r hr => ⟨h.prefix.2.subset hr.1, hr.2⟩
    simp only [exec, if_pos hm, if_pos hm']
    exact ih (fun b hb => hg b (by simp [hb])) f
  | @part m rs stop bs w j hm h1 h2 =>
    have hrs : rs ≠ [] := fun e => by rw [e] at h2; simp at h2; omega
    by_cases hm' : ∃ r ∈ addRows 5 w.2 (rs.take j), m r
    · obtain ⟨r, hr, hmr⟩ := hm'
      have hr' : r ∈ rs.take j := by
        by_contra hn
        exact hm ⟨r, (mem_addRows hr).resolve_right hn, hmr⟩
      obtain ⟨i, hi, e⟩ := List.mem_iff_getElem.1 hr'
      rw [List.getElem_take] at e
      have hi' : i < j ∧ i < rs.length := by simpa using hi
      have := hg _ List.mem_cons_self i r (by rw [List.getElem?_eq_getElem hi'.2, e]) hmr
      have hj : j = rs.length := by omega
      have hst : stop = false := this.2
      subst hst
      simp only [exec, if_neg hm, if_pos (show ∃ r ∈ addRows 5 w.2 (rs.take j), m r from ⟨r, hr, hmr⟩), if_neg hrs, hj,
        List.take_length]
      rfl
    · have e := addRows_restart 5 w.2 rs j
      simp only [exec, if_neg hm, if_neg hm', if_neg hrs, e]
  | @later m rs bs w g hm h ih =>
    have e : addRows 5 g.2 rs = g.2 := addRows_again h.prefix.2
    have e' : (g.1, addRows 5 g.2 rs) = g := by rw [e]
    have hb : ∀ b ∈ bs, b.Good := fun b hb => hg b (by simp [hb])
    by_cases hm' : ∃ r ∈ g.2, m r
    · simp only [exec, if_neg hm, if_pos hm']
      exact ih hb _
    · simp only [exec, if_neg hm, if_neg hm', e', ite_self]
      exact ih hb _

/-! ## Sweeps carry out plans -/

/-- The tables of a database, given the rows of the two tables of a sweep. -/
def tabs (base : Tables) (cfg : Config) (st : St) : Tables :=
  Function.update (Function.update base cfg.dynTable (some (dynTable st.1))) cfg.expTable (some (expTable st.2))

/-- The connection sees `w` and the file holds `f`. -/
def Rep (base : Tables) (cfg : Config) (c : Conn) (w f : St) : Prop := c.work = tabs base cfg w ∧ c.saved = tabs base cfg f

/-- A computation carries out a plan. -/
def Impl (base : Tables) (cfg : Config) (K : PyM Conn Unit) (bs : List Block) : Prop :=
  ∀ c w f, Rep base cfg c w f → Rep base cfg (K c).2 (exec bs (w, f)).1 (exec bs (w, f)).2 ∧
    ∃ new, (K c).2.history = c.history ++ new ∧ ∀ t ∈ new, t = tabs base cfg f ∨ ∃ g, InFiles bs w g ∧ t = tabs base cfg g

variable {base : Tables} {cfg : Config}

theorem tabs_exp (st : St) : tabs base cfg st cfg.expTable = some (expTable st.2) := Function.update_self ..

theorem tabs_dyn (hne : cfg.dynTable ≠ cfg.expTable) (st : St) : tabs base cfg st cfg.dynTable = some (dynTable st.1) := by
  unfold tabs
  rw [Function.update_of_ne hne, Function.update_self]

theorem tabs_update_exp (st : St) (e : List Row) :
    Function.update (tabs base cfg st) cfg.expTable (some (expTable e)) = tabs base cfg (st.1, e) := by
  unfold tabs
  rw [Function.update_idem]

theorem tabs_update_dyn (hne : cfg.dynTable ≠ cfg.expTable) (st : St) (d : List Row) :
    Function.update (tabs base cfg st) cfg.dynTable (some (dynTable d)) = tabs base cfg (d, st.2) := by
  unfold tabs
  rw [Function.update_comm hne.symm, Function.update_idem]

theorem impl_pure : Impl base cfg (pure ()) [] := fun c w f h => ⟨h, [], by simp, by simp⟩

theorem impl_stop {K : PyM Conn Unit} (e : Err) (hK : ∀ c, K c = (.error e, c)) (bs : List Block) :
    Impl base cfg K (.set (fun _ => False) [] true :: bs) := fun c w f h => by
  rw [hK]
  simpa [exec, addRows] using h

theorem impl_dyn (hne : cfg.dynTable ≠ cfg.expTable) (data : List (Arr × Arr)) (seed : ℤ) {K : PyM Conn Unit} {bs : List Block}
    (hK : Impl base cfg K bs) :
    Impl base cfg (do Db.insertDynamicsData cfg.dynTable data seed; K) (.dyn (dynRows seed 0 data) :: bs) := fun c w f h => by
  obtain ⟨c', h1, h2, h3, k, h4⟩ := insertDynamics_run cfg.dynTable seed data 0 (c := c) (rows := w.1)
    (by rw [h.1, tabs_dyn hne])
  have h1' : Db.insertDynamicsData cfg.dynTable data seed c = (.ok (), c') := h1
  rw [h.1, tabs_update_dyn hne] at h2
  obtain ⟨r1, new, r2, r3⟩ := hK c' _ f ⟨h2, h3.trans h.2⟩
  rw [PyM.bind_ok h1']
  refine ⟨r1, List.replicate k c.saved ++ new, by rw [r2, h4, List.append_assoc], fun t ht => ?_⟩
  rcases List.mem_append.1 ht with ht | ht
  · exact .inl ((List.eq_of_mem_replicate ht).trans h.2)
  · exact (r3 t ht).imp id fun ⟨g, hg, e⟩ => ⟨g, .dyn hg, e⟩

/-- The plan of one setting. -/
noncomputable def settingBlock (env : Env) (jac : Jac) (draw : Draw) (cfg : Config) (x y : List Arr) (seed : ℤ) (override : Bool)
    (s : Setting) : Block :=
  .set (fun r => override = false ∧ Marks seed s r) (powerRows env jac draw cfg x y seed s).1
    (match swallow (powerRows env jac draw cfg x y seed s).2 with
      | .ok _ => false
      | .error _ => true)

theorem impl_setting (env : Env) (jac : Jac) (draw : Draw) (x y : List Arr) (seed : ℤ) (override : Bool) (s : Setting)
    {K : Bool → PyM Conn Unit} {bs : List Block} (hK : ∀ b, Impl base cfg (K b) bs) :
    Impl base cfg (sweepSetting env jac draw cfg x y seed override s >>= K)
      (settingBlock env jac draw cfg x y seed override s :: bs) := fun c w f h => by
  have hc : c.work cfg.expTable = some (expTable w.2) := by rw [h.1, tabs_exp]
  by_cases hm : ∃ r ∈ w.2, override = false ∧ Marks seed s r
  · obtain ⟨r, hr, ho, hmr⟩ := hm
    subst ho
    have hs := sweepSetting_skip env jac draw cfg x y seed s hc ⟨r, hr, hmr⟩
    rw [PyM.bind_ok hs]
    obtain ⟨r1, new, r2, r3⟩ := hK false c w f h
    have hm' : ∃ r ∈ w.2, (false = false ∧ Marks seed s r) := ⟨r, hr, rfl, hmr⟩
    refine ⟨?_, new, r2, fun t ht => (r3 t ht).imp id fun ⟨g, hg, e⟩ => ⟨g, .skip hm' hg, e⟩⟩
    rw [settingBlock, exec, if_pos hm']
    exact r1
  · have hs := sweepSetting_run env jac draw cfg x y seed override s hc (by
      by_cases ho : override = true
      · exact .inl ho
      · exact .inr fun ⟨r, hr, hmr⟩ => hm ⟨r, hr, by simpa using ho, hmr⟩)
    have hw := commitRows_work hc (powerRows env jac draw cfg x y seed s).1
    have hf := commitRows_saved hc (powerRows env jac draw cfg x y seed s).1
    obtain ⟨new, n1, n2, -⟩ := commitRows_history hc (powerRows env jac draw cfg x y seed s).1
    rw [h.1, tabs_update_exp] at hw hf
    rw [h.2] at hf
    simp only [h.1, tabs_update_exp, h.2] at n2
    set rs := (powerRows env jac draw cfg x y seed s).1 with hrs
    have hrep : Rep base cfg (commitRows cfg.expTable c w.2 rs) (w.1, addRows 5 w.2 rs)
        (if rs = [] then f else (w.1, addRows 5 w.2 rs)) := by
      refine ⟨hw, hf.trans ?_⟩
      split <;> rfl
    have hnew : ∀ t ∈ new, t = tabs base cfg f ∨ ∃ g, InFiles (settingBlock env jac draw cfg x y seed override s :: bs) w g ∧
        t = tabs base cfg g := fun t ht => by
      rcases n2 t ht with e | ⟨j, hj, hj', e⟩
      · exact .inl e
      · exact .inr ⟨_, .part j hm hj hj', e⟩
    cases ho : swallow (powerRows env jac draw cfg x y seed s).2 with
    | error e =>
      rw [ho] at hs
      rw [PyM.bind_error hs]
      refine ⟨?_, new, n1, hnew⟩
      rw [settingBlock, exec, if_neg hm]
      simp only [ho, if_true]
      exact hrep
    | ok b =>
      rw [ho] at hs
      rw [PyM.bind_ok hs]
      obtain ⟨r1, new', r2, r3⟩ := hK b _ _ _ hrep
      refine ⟨?_, new ++ new', by rw [r2, n1, List.append_assoc], fun t ht => ?_⟩
      · rw [settingBlock, exec, if_neg hm]
        simp only [ho, Bool.false_eq_true, if_false]
        exact r1
      · rcases List.mem_append.1 ht with ht | ht
        · exact hnew t ht
        · have hb : settingBlock env jac draw cfg x y seed override s =
              .set (fun r => override = false ∧ Marks seed s r) rs false := by
            rw [settingBlock, ho]
          rcases r3 t ht with e | ⟨g, hg, e⟩
          · by_cases hnil : rs = []
            · rw [if_pos hnil] at e; exact .inl e
            · rw [if_neg hnil] at e
              refine .inr ⟨(w.1, addRows 5 w.2 (rs.take rs.length)), ?_, ?_⟩
              · rw [hb]
                exact .part rs.length hm (List.length_pos_iff.2 hnil) le_rfl
              · rw [List.take_length]; exact e
          · refine .inr ⟨g, ?_, e⟩
            rw [hb]
            exact .later hm hg

/-- The plan of the settings of one seed. -/
noncomputable def settingBlocks (env : Env) (jac : Jac) (draw : Draw) (cfg : Config) (x y : List Arr) (seed : ℤ)
    (override : Bool) (ss : List Setting) : List Block := ss.map (settingBlock env jac draw cfg x y seed override)

theorem impl_settings (env : Env) (jac : Jac) (draws : Draws) (x y : List Arr) (seed : ℤ)
    (hd : ∀ l l', draws seed l = draws seed l') (override : Bool) (ss : List Setting) {K : PyM Conn Unit} {bs : List Block}
    (hK : Impl base cfg K bs) (ran : List Setting) :
    Impl base cfg (do sweepSettings env jac draws cfg x y seed override ran ss; K)
      (settingBlocks env jac (draws seed []) cfg x y seed override ss ++ bs) := by
  induction ss generalizing ran with
  | nil => exact hK
  | cons s ss ih =>
    have := impl_setting env jac (draws seed []) x y seed override s (base := base) (cfg := cfg)
      (K := fun called => do
        sweepSettings env jac draws cfg x y seed override (if called then ran ++ [s] else ran) ss
        K) (bs := settingBlocks env jac (draws seed []) cfg x y seed override ss ++ bs) (fun b => ih _)
    intro c w f h
    have e : (do sweepSettings env jac draws cfg x y seed override ran (s :: ss); K : PyM Conn Unit) c =
        (sweepSetting env jac (draws seed []) cfg x y seed override s >>= fun called => do
          sweepSettings env jac draws cfg x y seed override (if called then ran ++ [s] else ran) ss
          K) c := by
      rw [hd [] ran]
      rw [PyM.bind_run, sweepSettings, PyM.bind_run, PyM.bind_run]
      rcases sweepSetting env jac (draws seed ran) cfg x y seed override s c with ⟨⟨e⟩ | ⟨a⟩, c'⟩
      · rfl
      · simp only [PyM.bind_run]
    rw [e]
    exact this c w f h

/-- The plan of a sweep. -/
noncomputable def sweepBlocks (env : Env) (jac : Jac) (draws : Draws) (cfg : Config) (ss : List Setting) (override : Bool) :
    List ℤ → List Block
  | [] => []
  | seed :: seeds =>
    match cfg.sim seed with
    | .error _ => [.set (fun _ => False) [] true]
    | .ok data =>
      .dyn (dynRows seed 0 data) ::
        if data = [] then [.set (fun _ => False) [] true]
        else settingBlocks env jac (draws seed []) cfg (data.map Prod.fst) (data.map Prod.snd) seed override ss ++
          sweepBlocks env jac draws cfg ss override seeds

theorem impl_sweep (hne : cfg.dynTable ≠ cfg.expTable) (env : Env) (jac : Jac) (draws : Draws)
    (hd : ∀ seed l l', draws seed l = draws seed l') (ss : List Setting) (override : Bool) (seeds : List ℤ) :
    Impl base cfg (sweepSeeds env jac draws cfg ss override seeds) (sweepBlocks env jac draws cfg ss override seeds) := by
  induction seeds with
  | nil => exact impl_pure
  | cons seed seeds ih =>
    unfold sweepSeeds sweepBlocks
    cases hs : cfg.sim seed with
    | error e => exact impl_stop e (fun c => rfl) []
    | ok data =>
      have key : Impl base cfg (if data = [] then PyM.raise .value
          else do
            sweepSettings env jac draws cfg (data.map Prod.fst) (data.map Prod.snd) seed override [] ss
            sweepSeeds env jac draws cfg ss override seeds)
          (if data = [] then [.set (fun _ => False) [] true]
            else settingBlocks env jac (draws seed []) cfg (data.map Prod.fst) (data.map Prod.snd) seed override ss ++
              sweepBlocks env jac draws cfg ss override seeds) := by
        split
        · exact impl_stop .value (fun c => rfl) []
        · exact impl_settings env jac draws _ _ seed (hd seed) override ss ih []
      exact impl_dyn hne data seed key

/-- With at most fifty iterations (or with the override flag) only the last row of a setting can make the sweep skip it. -/
theorem settingBlock_good (env : Env) (jac : Jac) (draw : Draw) (cfg : Config) (x y : List Arr) (seed : ℤ) (override : Bool)
    (h : override = true ∨ cfg.numIter ≤ 50) (s : Setting) : (settingBlock env jac draw cfg x y seed override s).Good := by
  unfold settingBlock Block.Good
  rintro i r hi ⟨ho, hm⟩
  have h50 : cfg.numIter ≤ 50 := h.resolve_left (by simp [ho])
  obtain ⟨a, b, rfl⟩ := powerRows_get env jac draw cfg x y seed s i r hi
  have hi' : (i : ℝ) + 1 = 50 := by
    have := hm
    simp [Marks, expRow] at this
    exact this
  have hi50 : i + 1 = 50 := by exact_mod_cast hi'
  obtain ⟨l1, l2⟩ := powerRows_length env jac draw cfg x y seed s
  have hlt : i < (powerRows env jac draw cfg x y seed s).1.length := (List.getElem?_eq_some_iff.1 hi).1
  refine ⟨by omega, ?_⟩
  rw [l2 (by omega) (by omega)]
  rfl

theorem sweepBlocks_good (env : Env) (jac : Jac) (draws : Draws) (cfg : Config) (ss : List Setting) (override : Bool)
    (h : override = true ∨ cfg.numIter ≤ 50) (seeds : List ℤ) :
    ∀ b ∈ sweepBlocks env jac draws cfg ss override seeds, b.Good := by
  have hstop : (Block.set (fun _ => False) [] true).Good := by simp [Block.Good]
  induction seeds with
  | nil => simp [sweepBlocks]
  | cons seed seeds ih =>
    unfold sweepBlocks
    split
    · simpa using hstop
    · next data _ =>
      intro b hb
      rcases List.mem_cons.1 hb with rfl | hb
      · trivial
      · split at hb
        · rw [List.mem_singleton.1 hb]; exact hstop
        · rcases List.mem_append.1 hb with hb | hb
          · obtain ⟨s, _, rfl⟩ := List.mem_map.1 hb
            exact settingBlock_good _ _ _ _ _ _ _ _ h _
          · exact ih b hb

/-! ## Creating the tables -/

theorem createTable_run {c : Conn} {name : String} {cols uniq : List String} {rows : List Row} (hx : c.inTx = false)
    (h : c.work name = some ⟨cols, uniq, rows⟩ ∨ c.work name = none ∧ rows = []) :
    Db.createTable name cols uniq c =
      (.ok (), ⟨Function.update c.work name (some ⟨cols, uniq, rows⟩), Function.update c.work name (some ⟨cols, uniq, rows⟩), false,
        c.history ++ [Function.update c.work name (some ⟨cols, uniq, rows⟩)]⟩) := by
  unfold Db.createTable
  rw [PyM.modify_run]
  rcases h with h | ⟨h, rfl⟩
  · have e : Function.update c.work name (some ⟨cols, uniq, rows⟩) = c.work := by rw [← h, Function.update_eq_self]
    simp [h, hx, Conn.record, e]
  · simp [h, hx, Conn.record]

theorem create_run (hne : cfg.dynTable ≠ cfg.expTable) {file : Tables} {st : St} (h : Holds cfg file st) :
    ∃ c, (∀ K : PyM Conn Unit, (do Db.createDynamicsTable cfg.dynTable; Db.createExperimentTable cfg.expTable; K : PyM Conn Unit)
        (Conn.connect file) = K c) ∧ Rep file cfg c st st ∧
      c.history = [file, Function.update file cfg.dynTable (some (dynTable st.1)), tabs file cfg st] := by
  obtain ⟨hd, he⟩ := h
  have h1 : Db.createDynamicsTable cfg.dynTable (Conn.connect file) = _ :=
    createTable_run (c := Conn.connect file) rfl hd
  refine ⟨_, fun K => (PyM.bind_ok h1 _).trans (PyM.bind_ok (createTable_run (rows := st.2) rfl ?_) _), ⟨rfl, rfl⟩, rfl⟩
  show Function.update file _ _ _ = _ ∨ Function.update file _ _ _ = _ ∧ _
  rw [Function.update_of_ne hne.symm]
  exact he

/-! ## Sweeps only add rows -/

/-- A computation adds rows satisfying `P` to the experiments; unless it adds some, the file stays as it is. -/
def Grow (base : Tables) (cfg : Config) (P : List Row → Row → Prop) (K : PyM Conn Unit) : Prop :=
  ∀ c w, c.work = tabs base cfg w → ∃ ds rs, (K c).2.work = tabs base cfg (addRows 2 w.1 ds, addRows 5 w.2 rs) ∧
    (rs = [] → (K c).2.saved = c.saved) ∧ ∀ r ∈ rs, P w.2 r

/-- The row `r` is computed by a setting of the sweep that is not skipped when the table holds `e`. -/
def Offered (env : Env) (jac : Jac) (draws : Draws) (cfg : Config) (ss : List Setting) (override : Bool) (seeds : List ℤ)
    (e : List Row) (r : Row) : Prop :=
  ∃ seed ∈ seeds, ∃ data, cfg.sim seed = .ok data ∧ ∃ s ∈ ss, ∃ ran,
    r ∈ (powerRows env jac (draws seed ran) cfg (data.map Prod.fst) (data.map Prod.snd) seed s).1 ∧
    (override = true ∨ ¬ ∃ q ∈ e, Marks seed s q)

theorem Offered.mono {env : Env} {jac : Jac} {draws : Draws} {ss ss' : List Setting} {override : Bool} {seeds seeds' : List ℤ}
    {e e' : List Row} {r : Row} (h : Offered env jac draws cfg ss override seeds e r) (h1 : ss ⊆ ss') (h2 : seeds ⊆ seeds')
    (h3 : e' ⊆ e) : Offered env jac draws cfg ss' override seeds' e' r := by
  obtain ⟨seed, a, data, b, s, c, ran, d, f⟩ := h
  exact ⟨seed, h2 a, data, b, s, h1 c, ran, d, f.imp id fun f ⟨q, hq, hm⟩ => f ⟨q, h3 hq, hm⟩⟩

theorem grow_bind {P : List Row → Row → Prop} (hP : ∀ e e' r, e' <+: e → P e r → P e' r) {α : Type} {X : PyM Conn α}
    {K : α → PyM Conn Unit} (hX : ∀ c w, c.work = tabs base cfg w → ∃ ds rs,
      (X c).2.work = tabs base cfg (addRows 2 w.1 ds, addRows 5 w.2 rs) ∧ (rs = [] → (X c).2.saved = c.saved) ∧
        ∀ r ∈ rs, P w.2 r)
    (hK : ∀ a, Grow base cfg P (K a)) : Grow base cfg P (X >>= K) := by
  intro c w h
  obtain ⟨ds, rs, h1, h2, h3⟩ := hX c w h
  rw [PyM.bind_run]
  rcases hx : X c with ⟨⟨e⟩ | ⟨a⟩, c'⟩
  · rw [hx] at h1 h2
    exact ⟨ds, rs, h1, h2, h3⟩
  · rw [hx] at h1 h2
    obtain ⟨ds', rs', k1, k2, k3⟩ := hK a c' _ h1
    refine ⟨ds ++ ds', rs ++ rs', ?_, fun hn => ?_, fun r hr => ?_⟩
    · rw [addRows_append, addRows_append]; exact k1
    · obtain ⟨n1, n2⟩ := List.append_eq_nil_iff.1 hn
      exact (k2 n2).trans (h2 n1)
    · rcases List.mem_append.1 hr with hr | hr
      · exact h3 r hr
      · exact hP _ _ r (addRows_prefix 5 _ _) (k3 r hr)

theorem grow_setting (env : Env) (jac : Jac) (draw : Draw) (x y : List Arr) (seed : ℤ) (override : Bool) (s : Setting) (c : Conn)
    (w : St) (h : c.work = tabs base cfg w) :
    ∃ rs, (sweepSetting env jac draw cfg x y seed override s c).2.work = tabs base cfg (w.1, addRows 5 w.2 rs) ∧
      (rs = [] → (sweepSetting env jac draw cfg x y seed override s c).2.saved = c.saved) ∧
      ∀ r ∈ rs, r ∈ (powerRows env jac draw cfg x y seed s).1 ∧ (override = true ∨ ¬ ∃ q ∈ w.2, Marks seed s q) := by
  have hc : c.work cfg.expTable = some (expTable w.2) := by rw [h, tabs_exp]
  by_cases hr : override = true ∨ ¬ ∃ q ∈ w.2, Marks seed s q
  · refine ⟨(powerRows env jac draw cfg x y seed s).1, ?_, ?_, fun r h' => ⟨h', hr⟩⟩
    · rw [sweepSetting_run env jac draw cfg x y seed override s hc hr]
      show (commitRows _ _ _ _).work = _
      rw [commitRows_work hc, h, tabs_update_exp]
    · intro hn
      rw [sweepSetting_run env jac draw cfg x y seed override s hc hr, hn]
      rfl
  · obtain ⟨h1, h2⟩ := not_or.1 hr
    have ho : override = false := by simpa using h1
    subst ho
    rw [sweepSetting_skip env jac draw cfg x y seed s hc (not_not.1 h2)]
    exact ⟨[], h, fun _ => rfl, by simp⟩

theorem grow_settings (env : Env) (jac : Jac) (draws : Draws) (ss' : List Setting) (seed : ℤ) (seeds : List ℤ) (hs : seed ∈ seeds)
    (override : Bool) (data : List (Arr × Arr)) (hdata : cfg.sim seed = .ok data) (ss : List Setting) (hss : ss ⊆ ss')
    (ran : List Setting) :
    Grow base cfg (Offered env jac draws cfg ss' override seeds)
      (sweepSettings env jac draws cfg (data.map Prod.fst) (data.map Prod.snd) seed override ran ss) := by
  induction ss generalizing ran with
  | nil => exact fun c w h => ⟨[], [], h, fun _ => rfl, by simp⟩
  | cons s ss ih =>
    refine grow_bind (fun e e' r h h' => h'.mono (List.Subset.refl _) (List.Subset.refl _) h.subset) (fun c w h => ?_)
      fun called => ih (fun a ha => hss (by simp [ha])) _
    obtain ⟨rs, h1, h2, h3⟩ := grow_setting env jac (draws seed ran) (data.map Prod.fst) (data.map Prod.snd) seed override s c w h
    exact ⟨[], rs, h1, h2, fun r hr => ⟨seed, hs, data, hdata, s, hss (by simp), ran, (h3 r hr).1, (h3 r hr).2⟩⟩

theorem grow_sweep (hne : cfg.dynTable ≠ cfg.expTable) (env : Env) (jac : Jac) (draws : Draws) (ss : List Setting)
    (override : Bool) (seeds' seeds : List ℤ) (hs : seeds ⊆ seeds') :
    Grow base cfg (Offered env jac draws cfg ss override seeds') (sweepSeeds env jac draws cfg ss override seeds) := by
  induction seeds with
  | nil => exact fun c w h => ⟨[], [], h, fun _ => rfl, by simp⟩
  | cons seed seeds ih =>
    have hP : ∀ (e e' : List Row) (r : Row), e' <+: e → Offered env jac draws cfg ss override seeds' e r →
        Offered env jac draws cfg ss override seeds' e' r :=
      fun e e' r h h' => h'.mono (List.Subset.refl _) (List.Subset.refl _) h.subset
    unfold sweepSeeds
    cases hsim : cfg.sim seed with
    | error e => exact fun c w h => ⟨[], [], h, fun _ => rfl, by simp⟩
    | ok data =>
      have key : Grow base cfg (Offered env jac draws cfg ss override seeds') (do
          Db.insertDynamicsData cfg.dynTable data seed
          if data = [] then PyM.raise .value
          else do
            sweepSettings env jac draws cfg (data.map Prod.fst) (data.map Prod.snd) seed override [] ss
            sweepSeeds env jac draws cfg ss override seeds) := by
        refine grow_bind hP (fun c w h => ?_) fun _ => ?_
        · obtain ⟨c', h1, h2, h3, -⟩ := insertDynamics_run cfg.dynTable seed data 0 (c := c) (rows := w.1)
            (by rw [h, tabs_dyn hne])
          refine ⟨dynRows seed 0 data, [], ?_, fun _ => ?_, by simp⟩
          · rw [show Db.insertDynamicsData cfg.dynTable data seed c = _ from h1]
            show c'.work = _
            rw [h2, h, tabs_update_dyn hne]; rfl
          · rw [show Db.insertDynamicsData cfg.dynTable data seed c = _ from h1]; exact h3
        · split
          · exact fun c w h => ⟨[], [], h, fun _ => rfl, by simp⟩
          · exact grow_bind hP (grow_settings env jac draws ss seed seeds' (hs (by simp)) override data hsim ss (List.Subset.refl _) [])
              fun _ => ih fun a ha => hs (by simp [ha])
      exact key

end Verif
