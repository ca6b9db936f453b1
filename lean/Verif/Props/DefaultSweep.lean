import Verif.Props.Shapes
import Verif.Props.Database

/-!
# What the default run of `Experiments/EP_FullSweep.py` does (C65)
-/

namespace Verif

open Matrix Gaussian Node

variable {env : Env}

/-- The growth model as built by its constructor. -/
noncomputable def ungm : Sys :=
  { transition := UNGM.f, measurement := UNGM.h, Q := .m (m1 1), R := .m (m1 10), initState := sG 0 5, dt := 1 }

theorem eye1_smul (a : ℝ) : (Arr.eye 1).smul a = .m (m1 a) := by
  refine congrArg Arr.m ?_
  ext i j; fin_cases i; fin_cases j; simp [m1]

theorem ungm_init : UNGM.init = .ok ungm := by
  unfold UNGM.init
  rw [eye1_smul, eye1_smul, eye1_smul]
  rfl

theorem ungm_transition (t : ℝ) (u : Option ℝ) : Elementwise (fun x => UNGM.f x (some t) u)
    (fun a => 0.5 * a + 25 * a / (1 + a ^ 2) + 8 * Real.cos (1.2 * t)) := by
  refine ⟨fun x => rfl, fun a => ?_⟩
  have : (1 : ℝ) + a ^ 2 ≠ 0 := by positivity
  fun_prop (disch := assumption)

theorem ungm_measurement (t u : Option ℝ) : Elementwise (fun x => UNGM.h x t u) (fun a => a ^ 2 / 20) :=
  ⟨fun x => rfl, by fun_prop⟩

theorem ungm_proper {ys : List Arr} (h2 : 2 ≤ ys.length) (hys : ∀ y ∈ ys, ∃ a : ℝ, y = .v (v1 a)) : Proper env 1 1 ungm ys where
  two := h2
  meas := fun y hy => by
    obtain ⟨a, rfl⟩ := hys y hy
    exact ⟨v1 a, .inr rfl⟩
  prior := ⟨v1 0, m1 5, sG_moments env 0 5, m1_posDef.2 (by norm_num)⟩
  Q := ⟨m1 1, rfl, m1_posDef.2 one_pos⟩
  R := ⟨m1 10, rfl, m1_posDef.2 (by norm_num)⟩

/-- If the first pass over the nodes built for a setting raises `ValueError`, `power_sweep` raises it and writes nothing. -/
theorem powerSweep_aborts {jac : Jac} {draw : Draw} {cfg : Config} {s : Setting} {T T' : TransformObj}
    (hsel : selectTransform s.transId cfg.sysDim 10000 = .ok (T, T')) (hN : 2 ≤ cfg.timesteps) (hiter : 1 ≤ cfg.numIter) (x ys : List Arr)
    (hys : ys ≠ [])
    (hab : (firstPass env cfg.timesteps cfg.sysDim
      ⟨T.call env jac draw, T'.call env jac draw, some cfg.system.Q, some cfg.system.R, s.power, s.damping⟩ cfg.system ys
      ⟨fun _ => Node.init 0 0, 0⟩).1 = .error .value) (seed : ℤ) (conn : Conn) :
    powerSweep env jac draw cfg x ys seed s conn = (.error .value, conn) := by
  set e : Estimator := ⟨T.call env jac draw, T'.call env jac draw, some cfg.system.Q, some cfg.system.R, s.power, s.damping⟩
    with he
  have hn : powerSweepNodes env jac draw cfg ys s = graph env cfg.timesteps cfg.sysDim e cfg.system ys := by
    funext h
    unfold powerSweepNodes
    rw [PyM.lift_bind_eq hsel]
    rfl
  obtain ⟨h1, hg, -⟩ := graph_run (env := env) cfg.timesteps cfg.sysDim hN e cfg.system ys hys ⟨fun _ => Node.init 0 0, 0⟩
  unfold firstPass at hab
  rw [PyM.bind_ok hg] at hab
  generalize hns : (List.range' (Heap.mk (fun _ => Node.init 0 0) 0).size cfg.timesteps).take ys.length = ns at hg hab
  obtain ⟨m, hm⟩ : ∃ m, cfg.numIter = m + 1 := ⟨cfg.numIter - 1, by omega⟩
  rcases hpass : epFwdBack env ns h1 with ⟨o, h2'⟩
  rw [hpass] at hab
  simp only at hab
  subst hab
  unfold powerSweep
  simp only
  rw [PyM.bind_ok (s' := (⟨h1, conn⟩ : World)) (a := ns) (by rw [onHeap_run, hn, hg])]
  unfold epIterations
  rw [hm]
  unfold epIterationsLoop
  rw [PyM.bind_error (s' := (⟨h2', conn⟩ : World)) (e := .value) (by rw [onHeap_run, hpass])]

/-- **C65.** A sweep of the growth model with the Taylor transform raises `ValueError` for every seed, power and damping, and writes
nothing. -/
theorem C65_power_sweep {jac : Jac} (hjac : CorrectJac jac) (hsq : CorrectSquareJac jac)
    (hcalm : ∀ A : Matrix (Fin 1) (Fin 1) ℝ, env.illPos A = false) (draw : Draw) (cfg : Config) (hsys : UNGM.init = .ok cfg.system)
    (hdim : cfg.sysDim = 1) (hN : 2 ≤ cfg.timesteps) (hiter : 1 ≤ cfg.numIter) (x ys : List Arr) (h2 : 2 ≤ ys.length)
    (hys : ∀ y ∈ ys, ∃ a : ℝ, y = .v (v1 a)) (seed : ℤ) {power damping : ℝ} (hp : 0 < power) (hγ : 0 ≤ damping) (conn : Conn) :
    powerSweep env jac draw cfg x ys seed ⟨"TT", power, damping⟩ conn = (.error .value, conn) := by
  rw [ungm_init, Except.ok.injEq] at hsys
  have hsel : selectTransform "TT" cfg.sysDim 10000 = .ok (.taylor cfg.sysDim, .taylor cfg.sysDim) := by
    unfold selectTransform
    rw [if_neg (by decide), if_pos (by decide)]
    rfl
  refine powerSweep_aborts hsel hN hiter x ys (by rintro rfl; simp at h2) ?_ seed conn
  rw [hdim]
  exact C65_ep_aborts (env := env) (N := cfg.timesteps) hjac hsq (sys := cfg.system) (ys := ys)
    (by rw [← hsys]; exact ungm_proper h2 hys) hN hcalm hp hγ rfl rfl rfl rfl (F := fun t a => 0.5 * a + 25 * a / (1 + a ^ 2) + 8 * Real.cos (1.2 * t))
    (G := fun a => a ^ 2 / 20) (fun t => by rw [← hsys]; exact ungm_transition t (some 0)) (by rw [← hsys]; exact ungm_measurement none none)
    ⟨fun _ => Node.init 0 0, 0⟩

/-- If the first setting of a sweep raises `ValueError`, the run dies with it, and the file is left as after creating the tables. -/
theorem sweepMain_aborts {jac : Jac} {draws : Draws} {cfg : Config} (hne : cfg.dynTable ≠ cfg.expTable)
    {seed : ℤ} (seeds : List ℤ) {type : String} (types : List String) {power damping : ℝ} (powers dampings : List ℝ)
    {data : List (Arr × Arr)} (hsim : cfg.sim seed = .ok data) (hd : data ≠ [])
    (hpow : ∀ conn, powerSweep env jac (draws seed []) cfg (data.map Prod.fst) (data.map Prod.snd) seed ⟨type, power, damping⟩ conn =
      (.error .value, conn))
    (override : Bool) (file : Tables) (drows erows : List Row) (h : Holds cfg file (drows, erows))
    (hrun : override = true ∨ ¬ ∃ r ∈ erows, Marks seed ⟨type, power, damping⟩ r) :
    ∃ c, sweepMain env jac draws cfg (seed :: seeds) (type :: types) (power :: powers) (damping :: dampings) override (Conn.connect file) =
        (.error .value, c) ∧ c.saved cfg.dynTable = some (dynTable drows) ∧ c.saved cfg.expTable = some (expTable erows) ∧
      ∀ n, n ≠ cfg.dynTable → n ≠ cfg.expTable → c.saved n = file n := by
  obtain ⟨c, c1, c2, -⟩ := create_run hne h
  obtain ⟨c', d1, d2, d3, -⟩ := insertDynamics_run cfg.dynTable seed data 0 (c := c) (rows := drows) (by rw [c2.1, tabs_dyn hne])
  have d1' : Db.insertDynamicsData cfg.dynTable data seed c = (.ok (), c') := d1
  have hexp : c'.work cfg.expTable = some (expTable erows) := by
    rw [d2, Function.update_of_ne hne.symm, c2.1, tabs_exp]
  replace hpow := hpow c'
  have hset : sweepSetting env jac (draws seed []) cfg (data.map Prod.fst) (data.map Prod.snd) seed override ⟨type, power, damping⟩ c' =
      (.error .value, c') := by
    have h1 := sweepSetting_run env jac (draws seed []) cfg (data.map Prod.fst) (data.map Prod.snd) seed override ⟨type, power, damping⟩ hexp hrun
    rw [powerSweep_run env jac (draws seed []) cfg _ _ seed _ hexp, Prod.mk.injEq] at hpow
    rw [h1, hpow.1, hpow.2]
    rfl
  refine ⟨c', ?_, ?_, ?_, fun n h1 h2 => ?_⟩
  · refine (c1 _).trans ?_
    unfold fullSweep sweepSeeds
    rw [PyM.lift_bind_eq hsim, PyM.bind_ok d1', if_neg hd]
    refine PyM.bind_error ?_ _
    simp only [settings, List.flatMap_cons, List.map_cons, List.cons_append]
    unfold sweepSettings
    exact PyM.bind_error hset _
  · rw [d3, c2.2, tabs_dyn hne]
  · rw [d3, c2.2, tabs_exp]
  · rw [d3, c2.2]
    unfold tabs
    rw [Function.update_of_ne h2, Function.update_of_ne h1]

/-- **C65.** The default run (growth model, transforms `TT`, `UT`, `MCT`) dies with `ValueError` in its first setting, unless a result
for that setting is stored; the file is left as after creating the tables, so the simulated data is lost. -/
theorem C65_default_sweep {jac : Jac} (hjac : CorrectJac jac) (hsq : CorrectSquareJac jac)
    (hcalm : ∀ A : Matrix (Fin 1) (Fin 1) ℝ, env.illPos A = false) (draws : Draws) (cfg : Config) (hsys : UNGM.init = .ok cfg.system)
    (hdim : cfg.sysDim = 1) (hN : 2 ≤ cfg.timesteps) (hiter : 1 ≤ cfg.numIter) (hne : cfg.dynTable ≠ cfg.expTable)
    {seed : ℤ} (seeds : List ℤ) (types : List String) {power damping : ℝ} (powers dampings : List ℝ) (hp : 0 < power) (hγ : 0 ≤ damping)
    {data : List (Arr × Arr)} (hsim : cfg.sim seed = .ok data) (h2 : 2 ≤ data.length) (hdata : ∀ q ∈ data, ∃ a : ℝ, q.2 = .v (v1 a))
    (override : Bool) (file : Tables) (drows erows : List Row) (h : Holds cfg file (drows, erows))
    (hrun : override = true ∨ ¬ ∃ r ∈ erows, Marks seed ⟨"TT", power, damping⟩ r) :
    ∃ c, sweepMain env jac draws cfg (seed :: seeds) ("TT" :: types) (power :: powers) (damping :: dampings) override (Conn.connect file) =
        (.error .value, c) ∧ c.saved cfg.dynTable = some (dynTable drows) ∧ c.saved cfg.expTable = some (expTable erows) ∧
      ∀ n, n ≠ cfg.dynTable → n ≠ cfg.expTable → c.saved n = file n :=
  sweepMain_aborts hne seeds types powers dampings hsim (by rintro rfl; simp at h2) (fun conn =>
    C65_power_sweep hjac hsq hcalm (draws seed []) cfg hsys hdim hN hiter (data.map Prod.fst) (data.map Prod.snd)
      (by simpa using h2) (by simpa using fun b a hab => hdata (a, b) hab) seed hp hγ conn) override file drows erows h hrun

/-- A Jacobian oracle meeting both contracts. -/
noncomputable def fullJac : Jac := fun f x =>
  match x with
  | .m _ => .ok ⟨[1, 1, 1, 1], fun _ => 0⟩
  | x => exactJac f x

theorem fullJac_correct : CorrectJac fullJac := fun f F F' x hF => exactJac_correct f F F' x hF

theorem fullJac_square : CorrectSquareJac fullJac := fun _ _ _ _ _ => ⟨_, rfl, rfl⟩

/-- The default run on an empty database, with three simulated time steps. -/
example (draws : Draws) : ∃ c, sweepMain calmEnv fullJac draws
    { system := ungm, timesteps := 3, sysDim := 1, numIter := 50, dynTable := "UNGM_SIM", expTable := "UNGM_EXP"
      sim := fun _ => .ok [(.v (v1 1), .v (v1 2)), (.v (v1 3), .v (v1 4)), (.v (v1 5), .v (v1 6))] }
    [101] ["TT", "UT", "MCT"] [0.1, 0.2] [1, 0.8] false (Conn.connect fun _ => none) = (.error .value, c) ∧
    c.saved "UNGM_SIM" = some (dynTable []) ∧ c.saved "UNGM_EXP" = some (expTable []) := by
  obtain ⟨c, h1, h2, h3, -⟩ := C65_default_sweep (env := calmEnv) fullJac_correct fullJac_square (fun _ => rfl) draws
    { system := ungm, timesteps := 3, sysDim := 1, numIter := 50, dynTable := "UNGM_SIM", expTable := "UNGM_EXP"
      sim := fun _ => .ok [(.v (v1 1), .v (v1 2)), (.v (v1 3), .v (v1 4)), (.v (v1 5), .v (v1 6))] }
    ungm_init rfl (by norm_num) (by norm_num) (by decide) (seed := 101) [] ["UT", "MCT"] (power := 0.1) (damping := 1) [0.2] [0.8]
    (by norm_num) zero_le_one rfl (by simp) (by simp) false (fun _ => none) [] [] ⟨.inr ⟨rfl, rfl⟩, .inr ⟨rfl, rfl⟩⟩ (.inr (by simp))
  exact ⟨c, h1, h2, h3⟩

end Verif
