import Verif.Model.Display
import Verif.Spec.Display
import Verif.Props.EpL96
import Verif.Props.IeksSweep
import Mathlib.Data.List.Dedup

/-!
# What `DisplayResults.py` prints for the tables that the sweeps leave (C88)
-/

namespace Verif

open Matrix

namespace Display

/-! ## Statistics -/

/-- The printed pair is mean and standard deviation of the numbers, or `nan` when there are none. -/
def Reports (o : Option Stat) (l : List ℝ) : Prop :=
  match o with
  | none => l = []
  | some t => l ≠ [] ∧ Summary l t.mean t.std

/-- A printed line for pairs of scores. -/
def ReportsLine (o : Option Stat × Option Stat) (l : List (ℝ × ℝ)) : Prop := Reports o.1 (l.map Prod.fst) ∧ Reports o.2 (l.map Prod.snd)

theorem reports_stats (l : List ℝ) : Reports (stats l) l := by
  unfold stats
  split
  · assumption
  · next h =>
    have hl : (0 : ℝ) < l.length := by exact_mod_cast List.length_pos_iff.2 h
    refine ⟨h, div_mul_cancel₀ _ hl.ne', Real.sqrt_nonneg _, ?_⟩
    dsimp only
    rw [Real.sq_sqrt, div_mul_cancel₀ _ hl.ne']
    refine div_nonneg (List.sum_nonneg fun a ha => ?_) hl.le
    obtain ⟨b, -, rfl⟩ := List.mem_map.1 ha
    exact sq_nonneg _

theorem Reports.perm {o : Option Stat} {l l' : List ℝ} (h : Reports o l) (hp : l.Perm l') : Reports o l' := by
  rcases o with _ | t
  · have h : l = [] := h
    subst h
    exact hp.nil_eq.symm
  · obtain ⟨h0, h1, h2, h3⟩ := h
    refine ⟨fun e => h0 (by rw [e] at hp; exact hp.eq_nil), ?_, h2, ?_⟩
    · rw [← hp.length_eq, ← hp.sum_eq]; exact h1
    · rw [← hp.length_eq, ← (hp.map _).sum_eq]; exact h3

/-- A list has only one mean and standard deviation. -/
theorem Reports.unique {o o' : Option Stat} {l : List ℝ} (h : Reports o l) (h' : Reports o' l) : o = o' := by
  rcases o with _ | ⟨m, s⟩ <;> rcases o' with _ | ⟨m', s'⟩
  · rfl
  · exact absurd h h'.1
  · exact absurd h' h.1
  · obtain ⟨h0, h1, h2, h3⟩ := h
    obtain ⟨-, k1, k2, k3⟩ := h'
    have hl : (0 : ℝ) < l.length := by exact_mod_cast List.length_pos_iff.2 h0
    dsimp only at *
    obtain rfl : m = m' := mul_right_cancel₀ hl.ne' (h1.trans k1.symm)
    have : s ^ 2 = s' ^ 2 := mul_right_cancel₀ hl.ne' (h3.trans k3.symm)
    rw [(sq_eq_sq₀ h2 k2).1 this]

/-! ## Queries -/

/-- The number in a cell. -/
def toNum : Cell → ℝ
  | .num a => a
  | _ => 0

theorem numbers_map {l : List Row} {f : Row → Cell} {v : Row → ℝ} (h : ∀ r ∈ l, f r = .num (v r)) : numbers (l.map f) = .ok (l.map v) := by
  induction l with
  | nil => rfl
  | cons r l ih =>
    rw [List.map_cons, h r (by simp), numbers, ih fun r hr => h r (by simp [hr])]
    rfl

open Classical in
theorem select_run {c : Conn} {table : String} {t : Table} (hc : c.work table = some t) {col : String} {conds : List (String × Cell)}
    (h1 : col ∈ t.cols) (h2 : ∀ q ∈ conds, q.1 ∈ t.cols) : select table col conds c =
      (.ok ((t.rows.filter fun r => conds.all fun q => decide (Table.cell t.cols r q.1 = q.2 ∧ q.2 ≠ .null)).map fun r =>
        Table.cell t.cols r col), c) := by
  unfold select
  rw [PyM.bind_ok (show (PyM.get : PyM Conn Conn) c = (.ok c, c) from rfl), hc]
  dsimp only
  rw [if_pos ⟨h1, h2⟩]
  rfl

open Classical in
/-- A line whose rows carry the pairs `v`. -/
theorem line_run {c : Conn} {table : String} {t : Table} (hc : c.work table = some t) {conds : List (String × Cell)}
    (h1 : "RMSE" ∈ t.cols) (h1' : "NLL" ∈ t.cols) (h2 : ∀ q ∈ conds, q.1 ∈ t.cols) {v : Row → ℝ × ℝ} {l : List Row}
    (hl : (t.rows.filter fun r => conds.all fun q => decide (Table.cell t.cols r q.1 = q.2 ∧ q.2 ≠ .null)).Perm l)
    (hv : ∀ r ∈ l, Table.cell t.cols r "RMSE" = .num (v r).1 ∧ Table.cell t.cols r "NLL" = .num (v r).2) :
    ∃ o, line table conds c = (.ok o, c) ∧ ReportsLine o (l.map v) := by
  unfold line
  rw [PyM.bind_ok (select_run hc h1 h2), PyM.bind_ok (select_run hc h1' h2),
    PyM.lift_bind_eq (numbers_map (v := fun r => (v r).1) fun r hr => (hv r (hl.mem_iff.1 hr)).1),
    PyM.lift_bind_eq (numbers_map (v := fun r => (v r).2) fun r hr => (hv r (hl.mem_iff.1 hr)).2)]
  refine ⟨_, rfl, ?_, ?_⟩
  · have := (reports_stats _).perm (hl.map fun r => (v r).1)
    rwa [List.map_map]
  · have := (reports_stats _).perm (hl.map fun r => (v r).2)
    rwa [List.map_map]

theorem lines_run {c : Conn} {table : String} {conds : ℝ → List (String × Cell)} {L : ℝ → List (ℝ × ℝ)}
    (h : ∀ p, ∃ o, line table (conds p) c = (.ok o, c) ∧ ReportsLine o (L p)) (ps : List ℝ) :
    ∃ os, lines table conds ps c = (.ok os, c) ∧ List.Forall₂ (fun p o => ReportsLine o (L p)) ps os := by
  induction ps with
  | nil => exact ⟨[], rfl, .nil⟩
  | cons p ps ih =>
    obtain ⟨o, h1, h2⟩ := h p
    obtain ⟨os, h3, h4⟩ := ih
    refine ⟨o :: os, ?_, .cons h2 h4⟩
    unfold lines
    rw [PyM.bind_ok h1, PyM.bind_ok h3]
    rfl

/-! ## After a sweep of the growth model -/

/-- The scores after `k + 1` passes. -/
noncomputable def growthScore (N : ℕ) (power damping : ℝ) (x y : ℕ → ℝ) (k : ℕ) : ℝ × ℝ :=
  scores N ((growthChain power damping y).estimates N (k + 1)) x

open Classical in
/-- The rows of a complete sweep that a query finds. -/
theorem found_rows {N numIter : ℕ} {seeds : List ℤ} {powers dampings : List ℝ} {x y : ℤ → ℕ → ℝ} {rows : List Row} (hk : Keyed 5 rows)
    (hin : ∀ seed ∈ seeds, ∀ p ∈ powers, ∀ d ∈ dampings, ∀ k < numIter, growthRow N seed p d (x seed) (y seed) k ∈ rows)
    (hsrc : ∀ r ∈ rows, ∃ seed ∈ seeds, ∃ p ∈ powers, ∃ d ∈ dampings, ∃ k < numIter, r = growthRow N seed p d (x seed) (y seed) k)
    (trans : String) (p d : ℝ) (k : ℕ) :
    (rows.filter fun r => [("Power", Cell.num p), ("Damping", .num d), ("Transform", .text trans), ("Iter", .num (k + 1 : ℕ))].all fun q =>
      decide (Table.cell Db.expCols r q.1 = q.2 ∧ q.2 ≠ .null)).Perm
      (if trans = "UT" ∧ p ∈ powers ∧ d ∈ dampings ∧ k < numIter then
        seeds.dedup.map fun seed => growthRow N seed p d (x seed) (y seed) k else []) := by
  have hcell : ∀ (seed : ℤ) (p' d' : ℝ) (x y : ℕ → ℝ) (k' : ℕ), ([("Power", Cell.num p), ("Damping", .num d), ("Transform", .text trans),
      ("Iter", .num (k + 1 : ℕ))].all fun q => decide (Table.cell Db.expCols (growthRow N seed p' d' x y k') q.1 = q.2 ∧ q.2 ≠ .null)) = true ↔
      p' = p ∧ d' = d ∧ trans = "UT" ∧ k' = k := by
    intro seed p' d' x y k'
    rw [List.all_eq_true]
    simp only [List.forall_mem_cons, decide_eq_true_eq]
    constructor
    · rintro ⟨⟨a, -⟩, ⟨b, -⟩, ⟨c, -⟩, ⟨d, -⟩, -⟩
      have a : Cell.num p' = .num p := a
      have b : Cell.num d' = .num _ := b
      have c : Cell.text "UT" = .text trans := c
      have d : Cell.num ((k' : ℝ) + 1) = .num (k + 1 : ℕ) := d
      refine ⟨Cell.num.inj a, Cell.num.inj b, (Cell.text.inj c).symm, ?_⟩
      have := Cell.num.inj d
      rw [← Nat.cast_succ] at this
      exact Nat.succ_injective (Nat.cast_injective this)
    · rintro ⟨rfl, rfl, rfl, rfl⟩
      refine ⟨⟨rfl, nofun⟩, ⟨rfl, nofun⟩, ⟨rfl, nofun⟩, ⟨?_, nofun⟩, nofun⟩
      show Cell.num ((k' : ℝ) + 1) = _
      rw [← Nat.cast_succ]
  have hnd : rows.Nodup := hk.imp fun h e => h (by rw [e])
  split
  · next h =>
    obtain ⟨rfl, hp, hd, hkn⟩ := h
    refine (List.perm_ext_iff_of_nodup (hnd.filter _) ?_).2 fun r => ?_
    · refine (List.nodup_dedup _).map fun a b e => ?_
      simp only [growthRow, expRow, List.cons.injEq, Cell.num.injEq, Int.cast_inj] at e
      exact e.2.1
    · rw [List.mem_filter, List.mem_map]
      constructor
      · rintro ⟨hr, hc⟩
        obtain ⟨seed, hs, p', -, d', -, k', -, rfl⟩ := hsrc r hr
        obtain ⟨rfl, rfl, -, rfl⟩ := (hcell _ _ _ _ _ _).1 hc
        exact ⟨seed, List.mem_dedup.2 hs, rfl⟩
      · rintro ⟨seed, hs, rfl⟩
        exact ⟨hin seed (List.mem_dedup.1 hs) p hp d hd k hkn, (hcell _ _ _ _ _ _).2 ⟨rfl, rfl, rfl, rfl⟩⟩
  · next h =>
    rw [List.perm_nil, List.filter_eq_nil_iff]
    intro r hr hc
    obtain ⟨seed, -, p', hp, d', hd, k', hkn, rfl⟩ := hsrc r hr
    obtain ⟨rfl, rfl, rfl, rfl⟩ := (hcell _ _ _ _ _ _).1 hc
    exact h ⟨rfl, hp, hd, hkn⟩

open Classical in
/-- **C88.** A sweep of the growth model with unscented transforms on a file without results, followed by the report: the line "Kalman
Smoother" holds mean and (population) standard deviation, over the different seeds, of the scores after the first pass with power and
damping one, and the line of a power those after fifty passes with the damping asked for.  A line is `nan` if its power or damping
was not part of the sweep, if the number of passes was too small, or if another transform is asked for. -/
theorem C88_growth {env : Env} (jac : Jac) (hcalm : ∀ A : Matrix (Fin 1) (Fin 1) ℝ, env.illPos A = false) (draws : Draws) (cfg : Config)
    (hsys : UNGM.init = .ok cfg.system) (hdim : cfg.sysDim = 1) (hN : 2 ≤ cfg.timesteps) (hexp : cfg.expTable = "UNGM_EXP")
    (hne : cfg.dynTable ≠ cfg.expTable) (seeds : List ℤ) (powers dampings : List ℝ) (hp : ∀ p ∈ powers, 0 < p) (x y : ℤ → ℕ → ℝ)
    (hsim : ∀ seed ∈ seeds, cfg.sim seed = .ok (scalarData cfg.timesteps (x seed) (y seed)))
    (override : Bool) (file : Tables) (drows : List Row) (h : Holds cfg file (drows, [])) :
    ∃ c, sweepMain env jac draws cfg seeds ["UT"] powers dampings override (Conn.connect file) = (.ok (), c) ∧
      ∀ (trans : String) (damping : ℝ) (ps : List ℝ), ∃ base rest,
        growth trans damping ps (Conn.connect c.saved) = (.ok (base, rest), Conn.connect c.saved) ∧
        ReportsLine base (if trans = "UT" ∧ 1 ∈ powers ∧ 1 ∈ dampings ∧ 1 ≤ cfg.numIter then
          seeds.dedup.map fun seed => growthScore cfg.timesteps 1 1 (x seed) (y seed) 0 else []) ∧
        List.Forall₂ (fun p o => ReportsLine o (if trans = "UT" ∧ p ∈ powers ∧ damping ∈ dampings ∧ 50 ≤ cfg.numIter then
          seeds.dedup.map fun seed => growthScore cfg.timesteps p damping (x seed) (y seed) 49 else [])) ps rest := by
  obtain ⟨c, rows, h1, h2, -, h3, h4, h5⟩ := C71_growth_sweep (env := env) jac hcalm draws cfg hsys hdim hN hne seeds powers dampings hp x y
    hsim override file drows [] h
  refine ⟨c, h1, fun trans damping ps => ?_⟩
  rw [hexp] at h2
  have key : ∀ (p d : ℝ) (k : ℕ), ∃ o, line "UNGM_EXP" [("Power", .num p), ("Damping", .num d), ("Transform", .text trans),
      ("Iter", .num (k + 1 : ℕ))] (Conn.connect c.saved) = (.ok o, Conn.connect c.saved) ∧
      ReportsLine o (if trans = "UT" ∧ p ∈ powers ∧ d ∈ dampings ∧ k < cfg.numIter then
          seeds.dedup.map fun seed => growthScore cfg.timesteps p d (x seed) (y seed) k else []) := by
    intro p d k
    have hl := found_rows (N := cfg.timesteps) (numIter := cfg.numIter) (h5 List.Pairwise.nil)
      (fun seed hs p hp d hd k hk => h3 seed hs p hp d hd (by simp [Fresh]) k hk)
      (fun r hr => (h4 r hr).resolve_left (by simp)) trans p d k
    set v : Row → ℝ × ℝ := fun r => (toNum (r.getD 5 .null), toNum (r.getD 6 .null))
    obtain ⟨o, e1, e2⟩ := line_run (c := Conn.connect c.saved) (v := v) h2 (by simp [expTable]) (by simp [expTable]) (by simp [expTable]) hl (by
      intro r hr
      split at hr
      · obtain ⟨seed, -, rfl⟩ := List.mem_map.1 hr
        exact ⟨rfl, rfl⟩
      · simp at hr)
    refine ⟨o, e1, ?_⟩
    have : (if trans = "UT" ∧ p ∈ powers ∧ d ∈ dampings ∧ k < cfg.numIter then
        seeds.dedup.map fun seed => growthRow cfg.timesteps seed p d (x seed) (y seed) k else []).map v =
        if trans = "UT" ∧ p ∈ powers ∧ d ∈ dampings ∧ k < cfg.numIter then
          seeds.dedup.map fun seed => growthScore cfg.timesteps p d (x seed) (y seed) k else [] := by
      split
      · rw [List.map_map]; rfl
      · rfl
    rwa [this] at e2
  obtain ⟨base, b1, b2⟩ := key 1 1 0
  obtain ⟨rest, r1, r2⟩ := lines_run (fun p => key p damping 49) ps
  simp only [zero_add, Nat.cast_one] at b1
  norm_num only at r1
  refine ⟨base, rest, ?_, b2, r2⟩
  unfold growth
  rw [PyM.bind_ok b1, PyM.bind_ok r1]
  rfl

/-! ## What a sweep cannot have stored -/

/-- A row computed for one of the settings. -/
def FromSettings (ss : List Setting) (r : Row) : Prop :=
  ∃ s ∈ ss, ∃ (seed : ℤ) (i a b : ℝ), r = expRow s.transId seed s.power s.damping i a b

/-- What is stored, or seen by the connection, was computed for one of the settings. -/
structure Only (cfg : Config) (ss : List Setting) (c : Conn) : Prop where
  work : ∃ w, c.work cfg.expTable = some (expTable w) ∧ ∀ r ∈ w, FromSettings ss r
  saved : ∃ w, c.saved cfg.expTable = some (expTable w) ∧ ∀ r ∈ w, FromSettings ss r
  dyn : ∃ w, c.work cfg.dynTable = some (dynTable w)

theorem only_setting (env : Env) (jac : Jac) (draw : Draw) {cfg : Config} (hne : cfg.dynTable ≠ cfg.expTable) (x y : List Arr) (seed : ℤ)
    (override : Bool) {ss : List Setting} {s : Setting} (hs : s ∈ ss) {c : Conn} (h : Only cfg ss c) :
    Only cfg ss (sweepSetting env jac draw cfg x y seed override s c).2 := by
  obtain ⟨⟨w, h1, h2⟩, h3, ⟨d, h4⟩⟩ := h
  by_cases hr : override = true ∨ ¬ ∃ q ∈ w, Marks seed s q
  · rw [sweepSetting_run env jac draw cfg x y seed override s h1 hr]
    have hrow : ∀ r ∈ addRows 5 w (powerRows env jac draw cfg x y seed s).1, FromSettings ss r := fun r hr => by
      rcases mem_addRows hr with hr | hr
      · exact h2 r hr
      · obtain ⟨i, hi⟩ := List.getElem?_of_mem hr
        obtain ⟨a, b, e⟩ := powerRows_get env jac draw cfg x y seed s i r hi
        exact ⟨s, hs, seed, _, a, b, e⟩
    refine ⟨⟨_, ?_, hrow⟩, ?_, ⟨d, ?_⟩⟩
    · rw [commitRows_work h1, Function.update_self]
    · rw [commitRows_saved h1]
      split
      · exact h3
      · exact ⟨_, Function.update_self .., hrow⟩
    · rw [commitRows_work h1, Function.update_of_ne hne, h4]
  · push Not at hr
    have ho : override = false := by simpa using hr.1
    subst ho
    rw [sweepSetting_skip env jac draw cfg x y seed s h1 hr.2]
    exact ⟨⟨w, h1, h2⟩, h3, ⟨d, h4⟩⟩

theorem only_settings (env : Env) (jac : Jac) (draws : Draws) {cfg : Config} (hne : cfg.dynTable ≠ cfg.expTable) (x y : List Arr) (seed : ℤ)
    (override : Bool) {ss : List Setting} (l : List Setting) (hl : l ⊆ ss) (ran : List Setting) {c : Conn} (h : Only cfg ss c) :
    Only cfg ss (sweepSettings env jac draws cfg x y seed override ran l c).2 := by
  induction l generalizing ran c with
  | nil => exact h
  | cons s l ih =>
    have h1 := only_setting env jac (draws seed ran) hne x y seed override (s := s) (hl (by simp)) h
    unfold sweepSettings
    rw [PyM.bind_run]
    rcases hx : sweepSetting env jac (draws seed ran) cfg x y seed override s c with ⟨e | b, c'⟩
    · rwa [hx] at h1
    · rw [hx] at h1
      exact ih (fun a ha => hl (by simp [ha])) _ h1

theorem only_sweep (env : Env) (jac : Jac) (draws : Draws) {cfg : Config} (hne : cfg.dynTable ≠ cfg.expTable) (ss : List Setting)
    (override : Bool) (seeds : List ℤ) {c : Conn} (h : Only cfg ss c) : Only cfg ss (sweepSeeds env jac draws cfg ss override seeds c).2 := by
  induction seeds generalizing c with
  | nil => exact h
  | cons seed seeds ih =>
    unfold sweepSeeds
    cases hsim : cfg.sim seed with
    | error e => exact h
    | ok data =>
      obtain ⟨h1, h2, ⟨d, h3⟩⟩ := h
      obtain ⟨c', e1, e2, e3, -⟩ := insertDynamics_run cfg.dynTable seed data 0 h3
      have e1 : Db.insertDynamicsData cfg.dynTable data seed c = _ := e1
      have h' : Only cfg ss c' := ⟨by rwa [e2, Function.update_of_ne hne.symm], by rwa [e3], ⟨_, by rw [e2, Function.update_self]⟩⟩
      rw [PyM.lift_bind_eq rfl, PyM.bind_ok e1]
      split
      · exact h'
      · have h'' := only_settings env jac draws hne (data.map Prod.fst) (data.map Prod.snd) seed override ss (List.Subset.refl _) [] h'
        rw [PyM.bind_run]
        rcases hx : sweepSettings env jac draws cfg (data.map Prod.fst) (data.map Prod.snd) seed override [] ss c' with ⟨e | b, c2⟩
        · rwa [hx] at h''
        · rw [hx] at h''
          exact ih h''

open Classical in
/-- **C88.** However a sweep ends, the report on a file that held no results before returns, and every line is `nan` whose transform,
power or damping was not part of the sweep. -/
theorem C88_absent (env : Env) (jac : Jac) (draws : Draws) (cfg : Config) (hexp : cfg.expTable = "UNGM_EXP")
    (hne : cfg.dynTable ≠ cfg.expTable) (seeds : List ℤ) (transTypes : List String) (powers dampings : List ℝ) (override : Bool)
    (file : Tables) (drows : List Row) (h : Holds cfg file (drows, [])) (trans : String) (damping : ℝ) (ps : List ℝ) :
    ∃ res c base rest, sweepMain env jac draws cfg seeds transTypes powers dampings override (Conn.connect file) = (res, c) ∧
      growth trans damping ps (Conn.connect c.saved) = (.ok (base, rest), Conn.connect c.saved) ∧
      (trans ∉ transTypes ∨ 1 ∉ powers ∨ 1 ∉ dampings → base = (none, none)) ∧
      List.Forall₂ (fun p o => trans ∉ transTypes ∨ p ∉ powers ∨ damping ∉ dampings → o = (none, none)) ps rest := by
  obtain ⟨c0, e0, r0, -⟩ := create_run hne h
  have h0 : Only cfg (settings transTypes powers dampings) c0 :=
    ⟨⟨[], by rw [r0.1, tabs_exp], by simp⟩, ⟨[], by rw [r0.2, tabs_exp], by simp⟩, ⟨_, by rw [r0.1, tabs_dyn hne]⟩⟩
  obtain ⟨-, ⟨w, h1, h2⟩, -⟩ := only_sweep env jac draws hne (settings transTypes powers dampings) override seeds h0
  have hmain : sweepMain env jac draws cfg seeds transTypes powers dampings override (Conn.connect file) =
      sweepSeeds env jac draws cfg (settings transTypes powers dampings) override seeds c0 := e0 _
  rw [hmain]
  rcases hr : sweepSeeds env jac draws cfg (settings transTypes powers dampings) override seeds c0 with ⟨res, c⟩
  rw [hr, hexp] at h1
  have key : ∀ p d i : ℝ, ∃ o, line "UNGM_EXP" [("Power", .num p), ("Damping", .num d), ("Transform", .text trans), ("Iter", .num i)]
      (Conn.connect c.saved) = (.ok o, Conn.connect c.saved) ∧ (trans ∉ transTypes ∨ p ∉ powers ∨ d ∉ dampings → o = (none, none)) := by
    intro p d i
    set conds : List (String × Cell) := [("Power", .num p), ("Damping", .num d), ("Transform", .text trans), ("Iter", .num i)] with hc
    set L := w.filter fun r => conds.all fun q => decide (Table.cell (expTable w).cols r q.1 = q.2 ∧ q.2 ≠ .null) with hL
    obtain ⟨o, e1, e2⟩ := line_run (c := Conn.connect c.saved) (conds := conds) (l := L)
      (v := fun r => (toNum (r.getD 5 .null), toNum (r.getD 6 .null))) h1 (by simp [expTable]) (by simp [expTable])
      (by simp [expTable, conds]) (List.Perm.refl _) (fun r hr => by
        obtain ⟨s, -, seed, i, a, b, rfl⟩ := h2 r (List.mem_filter.1 hr).1
        exact ⟨rfl, rfl⟩)
    refine ⟨o, e1, fun hno => ?_⟩
    have hnil : L = [] := by
      rw [hL, List.filter_eq_nil_iff]
      intro r hr hall
      obtain ⟨s, hs, seed, i', a, b, rfl⟩ := h2 r hr
      rw [List.all_eq_true] at hall
      simp only [hc, List.forall_mem_cons, decide_eq_true_eq] at hall
      obtain ⟨⟨a1, -⟩, ⟨a2, -⟩, ⟨a3, -⟩, -⟩ := hall
      have a1 : Cell.num s.power = .num p := a1
      have a2 : Cell.num s.damping = .num d := a2
      have a3 : Cell.text s.transId = .text trans := a3
      obtain ⟨t', ht, p', hp, d', hd, rfl⟩ : ∃ t ∈ transTypes, ∃ p ∈ powers, ∃ d ∈ dampings, s = ⟨t, p, d⟩ := by
        simp only [settings, List.mem_flatMap, List.mem_map] at hs
        obtain ⟨t, ht, p, hp, d, hd, rfl⟩ := hs
        exact ⟨t, ht, p, hp, d, hd, rfl⟩
      rw [← Cell.num.inj a1, ← Cell.num.inj a2, ← Cell.text.inj a3] at hno
      simp [ht, hp, hd] at hno
    rw [hnil] at e2
    obtain ⟨o1, o2⟩ := o
    obtain ⟨f1, f2⟩ := e2
    rcases o1 with _ | t
    · rcases o2 with _ | t
      · rfl
      · exact absurd rfl f2.1
    · exact absurd rfl f1.1
  obtain ⟨base, b1, b2⟩ := key 1 1 1
  have lines : ∀ ps : List ℝ, ∃ rest, Display.lines "UNGM_EXP"
      (fun p => [("Power", .num p), ("Damping", .num damping), ("Transform", .text trans), ("Iter", .num 50)]) ps (Conn.connect c.saved) =
      (.ok rest, Conn.connect c.saved) ∧
      List.Forall₂ (fun p o => trans ∉ transTypes ∨ p ∉ powers ∨ damping ∉ dampings → o = (none, none)) ps rest := by
    intro ps
    induction ps with
    | nil => exact ⟨[], rfl, .nil⟩
    | cons p ps ih =>
      obtain ⟨o, h1, h2⟩ := key p damping 50
      obtain ⟨os, h3, h4⟩ := ih
      refine ⟨o :: os, ?_, .cons h2 h4⟩
      unfold Display.lines
      rw [PyM.bind_ok h1, PyM.bind_ok h3]
      rfl
  obtain ⟨rest, r1, r2⟩ := lines ps
  refine ⟨res, c, base, rest, rfl, ?_, b2, r2⟩
  unfold growth
  rw [PyM.bind_ok b1, PyM.bind_ok r1]
  rfl

/-- As shipped: the sweeps use the dampings 1 and 0.8, the report asks for 0.2, and all five lines of powers are `nan`. -/
example (env : Env) (jac : Jac) (draws : Draws) (cfg : Config) (hexp : cfg.expTable = "UNGM_EXP")
    (hne : cfg.dynTable ≠ cfg.expTable) (seeds : List ℤ) (file : Tables) (h : Holds cfg file ([], [])) :
    ∃ res c base, sweepMain env jac draws cfg seeds ["TT", "UT", "MCT"] [0.1, 0.2, 1] [1, 0.8] false (Conn.connect file) = (res, c) ∧
      growth "MCT" 0.2 [1, 0.8, 0.6, 0.4, 0.2] (Conn.connect c.saved) =
        (.ok (base, List.replicate 5 (none, none)), Conn.connect c.saved) := by
  obtain ⟨res, c, base, rest, h1, h2, -, h3⟩ := C88_absent env jac draws cfg hexp hne seeds ["TT", "UT", "MCT"] [0.1, 0.2, 1] [1, 0.8] false
    file [] h "MCT" 0.2 [1, 0.8, 0.6, 0.4, 0.2]
  refine ⟨res, c, base, h1, ?_⟩
  rw [h2]
  have : rest = List.replicate 5 (none, none) := by
    refine List.eq_replicate_iff.2 ⟨h3.length_eq.symm, fun o ho => ?_⟩
    obtain ⟨i, hi, rfl⟩ := List.mem_iff_getElem.1 ho
    exact (List.forall₂_iff_get.1 h3).2 i (by rw [h3.length_eq]; exact hi) hi (.inr (.inr (by norm_num)))
  rw [this]

open Classical in
/-- **C88.** The section on Lorenz 96 asks for a transform other than `"MCT"`, the only one that the sweep over that system stores:
whatever happened in the sweep, all its lines are `nan`. -/
theorem C88_lorenz (u : EpL96.Setup) (dims : List ℕ) (seeds : List ℤ) (settings : List (ℝ × ℝ × ℕ)) {file : Tables}
    (hfile : Stores EpL96.cols 6 "L96_EXP" file []) {trans : String} (ht : trans ≠ "MCT") (power : ℝ) (dim : ℕ) :
    ∃ res c, EpL96.main u dims seeds settings (Conn.connect file) = (res, c) ∧
      lorenz trans power dim (Conn.connect c.saved) = (.ok ((none, none), (none, none)), Conn.connect c.saved) := by
  obtain ⟨res, c, new, h1, h2, h3, -⟩ := EpL96.C80_run u dims seeds settings hfile
  refine ⟨res, c, h1, ?_⟩
  have hw : (Conn.connect c.saved).work "L96_EXP" = some (keyedTable EpL96.cols 6 new) := by
    show c.saved "L96_EXP" = _
    rw [h2, withRows, Function.update_self, List.nil_append]
  have key : ∀ (col : String) (p d : Cell) (dm i : Cell), col ∈ EpL96.cols → select "L96_EXP" col
      [("Power", p), ("Damping", d), ("Transform", .text trans), ("dim", dm), ("Iter", i)] (Conn.connect c.saved) =
      (.ok [], Conn.connect c.saved) := by
    intro col p d dm i hcol
    rw [select_run hw hcol (by simp [keyedTable, EpL96.cols])]
    have : ((keyedTable EpL96.cols 6 new).rows.filter fun r =>
        [("Power", p), ("Damping", d), ("Transform", .text trans), ("dim", dm), ("Iter", i)].all fun q =>
          decide (Table.cell (keyedTable EpL96.cols 6 new).cols r q.1 = q.2 ∧ q.2 ≠ .null)) = [] := by
      rw [List.filter_eq_nil_iff]
      intro r hr hall
      rw [List.all_eq_true] at hall
      simp only [List.forall_mem_cons, decide_eq_true_eq] at hall
      obtain ⟨-, -, ⟨e, -⟩, -⟩ := hall
      have hk : r.take 6 ∈ EpL96.runKeys dims seeds settings := h3.subset (List.mem_map_of_mem hr)
      simp only [EpL96.runKeys, List.mem_flatMap, List.mem_map] at hk
      obtain ⟨j, -, s, -, i, -, hk⟩ := hk
      rcases r with _ | ⟨a, r⟩
      · simp [EpL96.rowKey] at hk
      · simp only [EpL96.rowKey, List.take_succ_cons, List.cons.injEq] at hk
        have e : a = .text trans := e
        rw [← hk.1] at e
        exact ht (Cell.text.inj e).symm
    rw [this]
    rfl
  unfold lorenz
  rw [PyM.bind_ok (key _ _ _ _ _ (by decide)), PyM.bind_ok (key _ _ _ _ _ (by decide)), PyM.bind_ok (key _ _ _ _ _ (by decide)),
    PyM.bind_ok (key _ _ _ _ _ (by decide))]
  have hs : stats [] = none := if_pos rfl
  simp only [numbers, removeOutliers, if_true, PyM.lift_ok_bind, hs]
  rfl

/-! ## The iterated smoother -/

/-- What the queries for a list of seeds return. -/
theorem perSeed_run {c : Conn} {table : String} {conds : ℤ → List (String × Cell)} {val : ℤ → ℝ × ℝ} {known : ℤ → Prop} [DecidablePred known]
    (h1 : ∀ seed, select table "RMSE" (conds seed) c = (.ok (if known seed then [.num (val seed).1] else []), c))
    (h2 : ∀ seed, select table "NLL" (conds seed) c = (.ok (if known seed then [.num (val seed).2] else []), c)) (seeds : List ℤ) :
    perSeed table conds seeds c = (.ok (seeds.map fun s => if known s then [(val s).1] else [],
      seeds.map fun s => if known s then [(val s).2] else []), c) := by
  induction seeds with
  | nil => rfl
  | cons seed seeds ih =>
    unfold perSeed
    rw [PyM.bind_ok (h1 seed), PyM.bind_ok (h2 seed), PyM.bind_ok ih]
    by_cases h : known seed
    · simp only [if_pos h, List.map_cons]
      rfl
    · simp only [if_neg h, List.map_cons]
      rfl

theorem stackStats_run {known : ℤ → Prop} [DecidablePred known] {f : ℤ → ℝ} {seeds : List ℤ} :
    ((∀ s ∈ seeds, known s) → ∃ o, stackStats (seeds.map fun s => if known s then [f s] else []) = .ok o ∧ Reports o (seeds.map f)) ∧
    ((∀ s ∈ seeds, ¬ known s) → stackStats (seeds.map fun s => if known s then [f s] else []) = .ok none) ∧
    ((∃ s ∈ seeds, known s) → (∃ s ∈ seeds, ¬ known s) → stackStats (seeds.map fun s => if known s then [f s] else []) = .error .value) := by
  refine ⟨fun h => ?_, fun h => ?_, fun ⟨a, ha, hka⟩ ⟨b, hb, hkb⟩ => ?_⟩
  · have e : (seeds.map fun s => if known s then [f s] else []) = seeds.map fun s => [f s] :=
      List.map_congr_left fun s hs => if_pos (h s hs)
    have e2 : (seeds.map fun s => [f s]).flatten = seeds.map f := by
      clear h e
      induction seeds with
      | nil => rfl
      | cons s l ih => rw [List.map_cons, List.flatten_cons, ih]; rfl
    refine ⟨stats (seeds.map f), ?_, reports_stats _⟩
    rw [e, stackStats, if_pos, e2]
    simp
  · have e : (seeds.map fun s => if known s then [f s] else []) = seeds.map fun _ => [] :=
      List.map_congr_left fun s hs => if_neg (h s hs)
    rw [e, stackStats, if_pos (by simp), stats, if_pos (by simp)]
  · rw [stackStats, if_neg]
    intro hall
    have := hall _ (List.mem_map_of_mem ha) _ (List.mem_map_of_mem hb)
    rw [if_pos hka, if_neg hkb] at this
    simp at this

open Classical in
/-- **C88.** A sweep of the iterated smoother over the growth model on a file without results, followed by the report.  If every seed that
the report asks for was part of the sweep, and the iterations are those of the sweep, the two lines hold mean and standard deviation of the
scores over the seeds asked for.  If no seed was, or the iterations differ, both are `nan`.  If some were and some were not, the report
fails with a `ValueError` before it prints anything. -/
theorem C88_smoother {env : Env} {jac : Jac} (hjac : CorrectJac jac) (rng : ℤ → Rng) {N : ℕ} (hN : 2 ≤ N) (numIter : ℕ) (seeds : List ℤ)
    {file : Tables} (hfile : Stores ["Seed", "Iter", "RMSE", "NLL"] 2 "UNGM_EXP" file []) :
    ∃ est : ℤ → ℕ → ℝ × ℝ, (∀ seed, GrowthEstimates env jac (rng seed) N numIter (est seed)) ∧
      ∃ c, IeksSweep.ungm env jac rng N numIter seeds (Conn.connect file) = (.ok (), c) ∧ ∀ (iter : ℕ) (asked : List ℤ),
        ((∀ s ∈ asked, s ∈ seeds) → iter = numIter → ∃ o,
          smoother "UNGM_EXP" (growthConds iter) asked (Conn.connect c.saved) = (.ok o, Conn.connect c.saved) ∧
          ReportsLine o (asked.map fun s => scores N (est s) fun i => trajectory (rng s) growthLaws growthStep 1 (i + 1) 0)) ∧
        ((∀ s ∈ asked, s ∉ seeds) ∨ iter ≠ numIter →
          smoother "UNGM_EXP" (growthConds iter) asked (Conn.connect c.saved) = (.ok (none, none), Conn.connect c.saved)) ∧
        ((∃ s ∈ asked, s ∈ seeds) → (∃ s ∈ asked, s ∉ seeds) → iter = numIter →
          smoother "UNGM_EXP" (growthConds iter) asked (Conn.connect c.saved) = (.error .value, Conn.connect c.saved)) := by
  obtain ⟨est, h1, c, h2, h3, -⟩ := C79_growth (env := env) hjac rng hN numIter seeds hfile
  refine ⟨est, h1, c, h2, fun iter asked => ?_⟩
  set row : ℤ → Row := fun seed => smootherRow (rng seed) N numIter seed (est seed) with hrow
  set val : ℤ → ℝ × ℝ := fun s => scores N (est s) fun i => trajectory (rng s) growthLaws growthStep 1 (i + 1) 0 with hval
  set rows := addRows 2 [] (seeds.map row) with hrows
  have hw : (Conn.connect c.saved).work "UNGM_EXP" = some (keyedTable ["Seed", "Iter", "RMSE", "NLL"] 2 rows) := by
    show c.saved "UNGM_EXP" = _
    rw [h3, withRows, Function.update_self]
  have hkeyed : Keyed 2 rows := addRows_keyed List.Pairwise.nil _
  have hnd : rows.Nodup := hkeyed.imp fun h e => h (by rw [e])
  have hsrc : ∀ r ∈ rows, ∃ s ∈ seeds, r = row s := fun r hr => by
    rcases mem_addRows hr with hr | hr
    · simp at hr
    · obtain ⟨s, hs, rfl⟩ := List.mem_map.1 hr
      exact ⟨s, hs, rfl⟩
  have hin : ∀ s ∈ seeds, row s ∈ rows := fun s hs => by
    have hf := addRows_find 2 [] (seeds.map row) ((row s).take 2)
    rw [List.nil_append] at hf
    have hsome : ((seeds.map row).find? fun q => decide (q.take 2 = (row s).take 2)).isSome := by
      rw [List.find?_isSome]
      exact ⟨row s, List.mem_map_of_mem hs, by simp⟩
    obtain ⟨q, hq⟩ := Option.isSome_iff_exists.1 hsome
    rw [hq] at hf
    have hq1 : q ∈ rows := List.mem_of_find?_eq_some hf
    have hq2 := List.find?_some hf
    obtain ⟨s', -, rfl⟩ := hsrc q hq1
    rw [decide_eq_true_eq] at hq2
    simp only [hrow, smootherRow, List.take_succ_cons, List.cons.injEq, Cell.num.injEq, Int.cast_inj] at hq2
    rw [← hq2.1]
    exact hq1
  have hfilter : ∀ s : ℤ, ((keyedTable ["Seed", "Iter", "RMSE", "NLL"] 2 rows).rows.filter fun r => (growthConds iter s).all fun q =>
      decide (Table.cell (keyedTable ["Seed", "Iter", "RMSE", "NLL"] 2 rows).cols r q.1 = q.2 ∧ q.2 ≠ .null)) = if s ∈ seeds ∧ iter = numIter then [row s] else [] := by
    intro s
    have hcell : ∀ s', ((growthConds iter s).all fun q =>
        decide (Table.cell (keyedTable ["Seed", "Iter", "RMSE", "NLL"] 2 rows).cols (row s') q.1 = q.2 ∧ q.2 ≠ .null)) = true ↔ s' = s ∧ iter = numIter := by
      intro s'
      rw [List.all_eq_true]
      simp only [growthConds, List.forall_mem_cons, decide_eq_true_eq]
      constructor
      · rintro ⟨⟨a, -⟩, ⟨b, -⟩, -⟩
        have a : Cell.num (s' : ℝ) = .num s := a
        have b : Cell.num (numIter : ℝ) = .num iter := b
        exact ⟨Int.cast_injective (Cell.num.inj a), (Nat.cast_injective (Cell.num.inj b)).symm⟩
      · rintro ⟨rfl, rfl⟩
        exact ⟨⟨rfl, nofun⟩, ⟨rfl, nofun⟩, nofun⟩
    split
    · next h =>
      refine List.perm_singleton.1 ((List.perm_ext_iff_of_nodup (hnd.filter _) (List.nodup_singleton _)).2 fun r => ?_)
      rw [List.mem_filter, List.mem_singleton]
      constructor
      · rintro ⟨hr, hc⟩
        obtain ⟨s', -, rfl⟩ := hsrc r hr
        rw [((hcell s').1 hc).1]
      · rintro rfl
        exact ⟨hin s h.1, (hcell s).2 ⟨rfl, h.2⟩⟩
    · next h =>
      rw [List.filter_eq_nil_iff]
      intro r hr hc
      obtain ⟨s', hs, rfl⟩ := hsrc r hr
      obtain ⟨rfl, hi⟩ := (hcell s').1 hc
      exact h ⟨hs, hi⟩
  have hsel : ∀ (col : String) (f : ℤ → ℝ), col ∈ ["Seed", "Iter", "RMSE", "NLL"] →
      (∀ s, Table.cell ["Seed", "Iter", "RMSE", "NLL"] (row s) col = .num (f s)) → ∀ s,
      select "UNGM_EXP" col (growthConds iter s) (Conn.connect c.saved) =
        (.ok (if s ∈ seeds ∧ iter = numIter then [.num (f s)] else []), Conn.connect c.saved) := by
    intro col f hcol hf s
    rw [select_run hw hcol (by simp [keyedTable, growthConds])]
    rw [hfilter s]
    split
    · rw [List.map_singleton]
      exact congrArg (fun a => (Except.ok [a], _)) (hf s)
    · rfl
  have hrun := perSeed_run (val := val) (known := fun s => s ∈ seeds ∧ iter = numIter) (hsel "RMSE" (fun s => (val s).1) (by decide) fun s => rfl)
    (hsel "NLL" (fun s => (val s).2) (by decide) fun s => rfl) asked
  obtain ⟨r1, r2, r3⟩ := stackStats_run (known := fun s => s ∈ seeds ∧ iter = numIter) (f := fun s => (val s).1) (seeds := asked)
  obtain ⟨l1, l2, l3⟩ := stackStats_run (known := fun s => s ∈ seeds ∧ iter = numIter) (f := fun s => (val s).2) (seeds := asked)
  unfold smoother
  rw [PyM.bind_ok hrun]
  refine ⟨fun h e => ?_, fun h => ?_, fun ⟨a, ha, hka⟩ ⟨b, hb, hkb⟩ e => ?_⟩
  · obtain ⟨o1, e1, e1'⟩ := r1 fun s hs => ⟨h s hs, e⟩
    obtain ⟨o2, e2, e2'⟩ := l1 fun s hs => ⟨h s hs, e⟩
    refine ⟨(o1, o2), ?_, ?_, ?_⟩
    · rw [PyM.lift_bind_eq e1, PyM.lift_bind_eq e2]
      rfl
    · rw [List.map_map]; exact e1'
    · rw [List.map_map]; exact e2'
  · have hno : ∀ s ∈ asked, ¬ (s ∈ seeds ∧ iter = numIter) := fun s hs ⟨h', h''⟩ => h.elim (fun h => h s hs h') fun h => h h''
    rw [PyM.lift_bind_eq (r2 hno), PyM.lift_bind_eq (l2 hno)]
    rfl
  · exact PyM.bind_error (by rw [r3 ⟨a, ha, hka, e⟩ ⟨b, hb, fun h => hkb h.1⟩]; rfl) _

/-- An empty file, fifty passes, two seeds: the line of the power 0.8 is over both seeds, that of a power not swept is `nan`. -/
example (jac : Jac) (draws : Draws) (x y : ℤ → ℕ → ℝ) : ∃ c base o, sweepMain calmEnv jac draws
    { system := ungm, timesteps := 100, sysDim := 1, numIter := 50, dynTable := "UNGM_SIM", expTable := "UNGM_EXP"
      sim := fun seed => .ok (scalarData 100 (x seed) (y seed)) }
    [101, 201, 101] ["UT"] [0.8, 1] [1, 0.8] false (Conn.connect fun _ => none) = (.ok (), c) ∧
    growth "UT" 1 [0.8, 0.6] (Conn.connect c.saved) = (.ok (base, [o, (none, none)]), Conn.connect c.saved) ∧
    ReportsLine o [growthScore 100 0.8 1 (x 201) (y 201) 49, growthScore 100 0.8 1 (x 101) (y 101) 49] := by
  obtain ⟨c, h1, h2⟩ := C88_growth (env := calmEnv) jac (fun _ => rfl) draws
    { system := ungm, timesteps := 100, sysDim := 1, numIter := 50, dynTable := "UNGM_SIM", expTable := "UNGM_EXP"
      sim := fun seed => .ok (scalarData 100 (x seed) (y seed)) } ungm_init rfl (by norm_num) rfl (by simp) [101, 201, 101] [0.8, 1] [1, 0.8]
    (by norm_num) x y (fun _ _ => rfl) false (fun _ => none) [] ⟨.inr ⟨rfl, rfl⟩, .inr ⟨rfl, rfl⟩⟩
  obtain ⟨base, rest, h3, -, h4⟩ := h2 "UT" 1 [0.8, 0.6]
  rcases h4 with _ | ⟨h5, _ | ⟨h6, ⟨⟩⟩⟩
  rename_i o o'
  rw [if_pos (by norm_num)] at h5
  rw [if_neg (by norm_num)] at h6
  refine ⟨c, base, o, h1, ?_, ?_⟩
  · rw [h3]
    obtain ⟨_ | a, _ | b⟩ := o'
    · rfl
    · exact absurd rfl h6.2.1
    · exact absurd rfl h6.1.1
    · exact absurd rfl h6.1.1
  · have e : ([101, 201, 101] : List ℤ).dedup = [201, 101] := by decide
    rw [e] at h5
    exact h5

/-- Two seeds swept: the report on them works, with a third it fails. -/
example {jac : Jac} (hjac : CorrectJac jac) (rng : ℤ → Rng) : ∃ c o,
    IeksSweep.ungm calmEnv jac rng 100 50 [101, 201] (Conn.connect fun _ => none) = (.ok (), c) ∧
    smoother "UNGM_EXP" (growthConds 50) [101, 201] (Conn.connect c.saved) = (.ok o, Conn.connect c.saved) ∧
    smoother "UNGM_EXP" (growthConds 50) [101, 201, 301] (Conn.connect c.saved) = (.error .value, Conn.connect c.saved) := by
  obtain ⟨est, -, c, h1, h2⟩ := C88_smoother (env := calmEnv) hjac rng (N := 100) (by norm_num) 50 [101, 201] (file := fun _ => none)
    (.inr ⟨rfl, rfl⟩)
  obtain ⟨o, h3, -⟩ := (h2 50 [101, 201]).1 (by simp) rfl
  exact ⟨c, o, h1, h3, (h2 50 [101, 201, 301]).2.2 ⟨101, by simp, by simp⟩ ⟨301, by simp, by decide⟩ rfl⟩

end Display

end Verif
