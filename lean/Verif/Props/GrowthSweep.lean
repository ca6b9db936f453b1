import Verif.Props.FirstPass
import Verif.Props.DefaultSweep
import Verif.Props.Likelihood

/-!
# The sweep of the growth model with unscented transforms completes, and what it stores (C71)
-/

namespace Verif

open Matrix Gaussian Node Site

variable {env : Env} {e : Estimator} {sys : Sys} {ys : List Arr} {N s : ℕ} {c : Chain}

/-! ## Metrics of scalar marginals -/

theorem num_isPoint (b : Bool) (m : ℝ) : IsPoint (num b m) (v1 m) := by
  cases b
  · exact .inl rfl
  · exact .inr rfl

theorem spread_m1 {v : ℝ} (hv : 0 < v) : Spread (m1 v) := fun u w hu hw => by
  have e : ∀ u : Fin 1 → ℝ, u ⬝ᵥ u = 1 → u ⬝ᵥ m1 v *ᵥ u = v := fun u hu => by
    simp only [dotProduct, Fin.sum_univ_one, mulVec, m1_apply] at hu ⊢
    linear_combination v * hu
  rw [e u hu, e w hw]
  norm_num
  linarith

theorem Mom1.nll {g : Gaussian} {b : Bool} {m v : ℝ} (h : Mom1 env g b m v) (hv : 0 < v) (x : ℝ) :
    g.nll env (.v (v1 x)) = .ok ((Real.log (2 * Real.pi) + Real.log v + (x - m) ^ 2 / v) / 2) := by
  have h1 : mvnMean (num b m) = mvnMean (.v (v1 m)) := by cases b <;> rfl
  have hc := h.covA
  have h2 : g.nll env (.v (v1 x)) = (sG m v).nll env (.v (v1 x)) := by
    have hs := sG_moments env m v
    unfold Gaussian.nll
    rw [h.meanA, hc, hs.meanA, hs.covA]
    simp only [ok_bind]
    rw [h1]
  rw [h2, C64_formula (sG_moments env m v) (m1_posDef.2 hv) (spread_m1 hv) (.inl rfl)]
  simp only [m1_det, m1_inv, v1_sub, m1_mulVec, dotProduct, Fin.sum_univ_one, v1_apply, Nat.cast_one, one_mul]
  congr 2
  field_simp

/-- `node_metrics` of scalar marginals. -/
theorem nodeMetrics_scalar {h : Heap} {est : ℕ → ℝ × ℝ} {x : ℕ → ℝ} (hN : 0 < N)
    (hn : ∀ i, i < N → ∃ b, Mom1 env (h.get (s + i)).marginal b (est i).1 (est i).2 ∧ 0 < (est i).2) :
    Metrics.nodeMetrics env h (List.range' s N) ((List.range N).map fun i => .v (v1 (x i))) = .ok (scores N est x) := by
  have hz : ((List.range' s N).map fun r => (h.get r).marginal).zip ((List.range N).map fun i => Arr.v (v1 (x i))) =
      (List.range N).map fun i => ((h.get (s + i)).marginal, Arr.v (v1 (x i))) := by
    rw [List.range'_eq_map_range, List.map_map, List.zip_map']
    rfl
  have hc : Compared env ((List.range' s N).map fun r => (h.get r).marginal) ((List.range N).map fun i => Arr.v (v1 (x i)))
      ((List.range N).map fun i => (v1 (est i).1, v1 (x i))) := by
    unfold Compared
    rw [hz, List.forall₂_map_left_iff, List.forall₂_map_right_iff, List.forall₂_same]
    intro i hi
    obtain ⟨b, hb, -⟩ := hn i (List.mem_range.1 hi)
    exact ⟨⟨_, hb.meanA, num_isPoint b _⟩, .inl rfl⟩
  have h1 := (C58_rmse hc (by simpa using hN.ne')).1
  have h2 := C64_average (env := env) (states := (List.range' s N).map fun r => (h.get r).marginal)
    (truths := (List.range N).map fun i => Arr.v (v1 (x i)))
    (ls := (List.range N).map fun i => (Real.log (2 * Real.pi) + Real.log (est i).2 + (x i - (est i).1) ^ 2 / (est i).2) / 2) (by
      rw [hz, List.forall₂_map_left_iff, List.forall₂_map_right_iff, List.forall₂_same]
      intro i hi
      obtain ⟨b, hb, hp⟩ := hn i (List.mem_range.1 hi)
      exact hb.nll hp (x i)) (by simpa using hN.ne')
  unfold Metrics.nodeMetrics
  simp only
  rw [h1, ok_bind, h2, ok_bind]
  simp only [py_pure, scores, rootMeanSq, List.map_map, List.length_map, List.length_range]
  have hs : ∀ f : ℕ → ℝ, ((List.range N).map f).sum = ∑ i ∈ Finset.range N, f i := fun f => by
    rw [Finset.sum_eq_multiset_sum, Finset.range_val, Multiset.range, Multiset.map_coe, Multiset.sum_coe]
  rw [hs, hs]
  simp [sqDist]

/-! ## The rows of one setting -/

/-- Every pass succeeds, and so do the metrics after it. -/
theorem epRows_ok {nodes : List Ref} {xs : List Arr} (mk : ℝ → ℝ → ℝ → Row) (n : ℕ) : ∀ (it : ℝ) (h : Heap) (rl : ℕ → ℝ × ℝ),
    (∀ k, k < n → (epFwdBack env nodes (passes env nodes k h)).1 = .ok () ∧
      Metrics.nodeMetrics env (passes env nodes (k + 1) h) nodes xs = .ok (rl k)) →
    epRows env nodes xs mk n it h = ((List.range n).map fun k : ℕ => mk (it + (k + 1)) (rl k).1 (rl k).2, .ok ()) := by
  induction n with
  | zero => intro it h rl _; rfl
  | succ n ih =>
    intro it h rl H
    obtain ⟨a, b⟩ := H 0 (Nat.succ_pos n)
    simp only [passes] at a b
    unfold epRows
    rw [a, b]
    dsimp only
    rw [ih (it + 1) _ (fun k => rl (k + 1)) (fun k hk => by
      have := H (k + 1) (by omega)
      rwa [passes_succ, passes_succ] at this)]
    simp only [List.range_succ_eq_map, List.map_cons, List.map_map, Nat.cast_zero, zero_add]
    congr 2
    refine List.map_congr_left fun k _ => ?_
    simp only [Function.comp, Nat.succ_eq_add_one, Nat.cast_add, Nat.cast_one]
    congr 1
    ring

theorem Sim.passes_fun (hm : Models env e sys ys N c) (hr : c.Regular) {h0 : Heap} {V : ℕ → Vals}
    (hs : Sim env e sys ys N s h0 h0 V) (k : ℕ) :
    Sim env e sys ys N s h0 (Verif.passes env (List.range' s N) k h0) ((c.steps N (passCalls N))^[k] V) ∧
      (epFwdBack env (List.range' s N) (Verif.passes env (List.range' s N) k h0)).1 = .ok () := by
  have key : ∀ k, Sim env e sys ys N s h0 (Verif.passes env (List.range' s N) k h0) ((c.steps N (passCalls N))^[k] V) := by
    intro k
    induction k with
    | zero => exact hs
    | succ k ih =>
      obtain ⟨h', e1, s1⟩ := ih.pass hm hr
      rw [Function.iterate_succ_apply', Verif.passes, e1]
      exact s1
  obtain ⟨h', e1, -⟩ := (key k).pass hm hr
  exact ⟨key k, by rw [e1]⟩

/-- The growth model as a chain, under the transforms of the experiments. -/
noncomputable def growthChain (power damping : ℝ) (y : ℕ → ℝ) : Chain :=
  unscentedChain ⟨1, 2, 3⟩ ⟨1, 2, 2⟩ power damping 1 10 0 5 growth (fun x => x ^ 2 / 20) y

/-- The row of iteration `k + 1`. -/
noncomputable def growthRow (N : ℕ) (seed : ℤ) (power damping : ℝ) (x y : ℕ → ℝ) (k : ℕ) : Row :=
  expRow "UT" seed power damping (k + 1) (scores N ((growthChain power damping y).estimates N (k + 1)) x).1
    (scores N ((growthChain power damping y).estimates N (k + 1)) x).2

/-- Simulated data: states and measurements of shape `(1,)`. -/
noncomputable def scalarData (N : ℕ) (x y : ℕ → ℝ) : List (Arr × Arr) := (List.range N).map fun i => (.v (v1 (x i)), .v (v1 (y i)))

/-- The rows of a sweep of the growth model with unscented transforms. -/
theorem powerRows_growth (jac : Jac) (hcalm : ∀ A : Matrix (Fin 1) (Fin 1) ℝ, env.illPos A = false) (draw : Draw) (cfg : Config)
    (hsys : UNGM.init = .ok cfg.system) (hdim : cfg.sysDim = 1) (hN : 2 ≤ cfg.timesteps) (seed : ℤ) {power : ℝ} (hp : 0 < power)
    (damping : ℝ) (x y : ℕ → ℝ) :
    powerRows env jac draw cfg ((List.range cfg.timesteps).map fun i => .v (v1 (x i)))
        ((List.range cfg.timesteps).map fun i => .v (v1 (y i))) seed ⟨"UT", power, damping⟩ =
      ((List.range cfg.numIter).map (growthRow cfg.timesteps seed power damping x y), .ok ()) := by
  obtain ⟨u, hu⟩ := init_ok params_trans
  obtain ⟨u', hu'⟩ := init_ok params_meas
  have hsel : selectTransform "UT" cfg.sysDim 10000 = .ok (.ut u, .ut u') := by
    unfold selectTransform
    rw [if_pos (by decide), hdim]
    have hu1 : UT.init 1 1 2 3 = .ok u := hu
    have hu2 : UT.init 1 1 2 2 = .ok u' := hu'
    rw [hu1, hu2]
    rfl
  set ya := (List.range cfg.timesteps).map fun i => Arr.v (v1 (y i)) with hya
  set e : Estimator := ⟨u.transform env, u'.transform env, some cfg.system.Q, some cfg.system.R, power, damping⟩ with he
  have hn : powerSweepNodes env jac draw cfg ya ⟨"UT", power, damping⟩ = graph env cfg.timesteps 1 e cfg.system ya := by
    funext h
    unfold powerSweepNodes
    rw [PyM.lift_bind_eq hsel, hdim]
    rfl
  have hm : Models env e cfg.system ya cfg.timesteps (growthChain power damping y) :=
    ungm_models hcalm hu hu' params_trans params_meas hsys hN (by simp [hya]) (fun i a hi => by
      simp only [hya, List.getElem?_map, Option.map_eq_some_iff] at hi
      obtain ⟨j, hj, rfl⟩ := hi
      obtain ⟨hj1, rfl⟩ := List.getElem?_eq_some_iff.1 hj
      rw [List.getElem_range]
      exact .inr rfl)
  have hr : (growthChain power damping y).Regular := unscented_regular params_trans params_meas hp one_pos (by norm_num) (by norm_num) _ _ _
  obtain ⟨h1, g1, s1⟩ := Sim.start hm ⟨fun _ => Node.init 0 0, 0⟩
  unfold powerRows
  rw [hn, g1]
  dsimp only
  rw [epRows_ok (env := env) _ _ 0 h1 (fun k => scores cfg.timesteps ((growthChain power damping y).estimates cfg.timesteps (k + 1)) x)
    (fun k _ => ⟨(s1.passes_fun hm hr k).2, nodeMetrics_scalar (by omega) fun i hi => by
      have := ((s1.passes_fun hm hr (k + 1)).1.isNode hm hi).M.mom
      exact ⟨_, this, Site.var_pos _⟩⟩)]
  simp only [zero_add]
  rfl

/-! ## The sweep -/

/-- No stored row belongs to the seed and the setting. -/
def Fresh (rows : List Row) (seed : ℤ) (s : Setting) : Prop :=
  ∀ r ∈ rows, ∀ it : ℝ, r.take 5 ≠ [.text s.transId, .num seed, .num it, .num s.power, .num s.damping]

/-- The rows to be stored for a seed and a setting. -/
structure Plan (E : ℤ → Setting → List Row) : Prop where
  key : ∀ seed s, ∀ r ∈ E seed s, ∃ it : ℝ, r.take 5 = [.text s.transId, .num seed, .num it, .num s.power, .num s.damping]
  keyed : ∀ seed s, Keyed 5 (E seed s)

theorem addRows_fresh {k : ℕ} {rows rs : List Row} (h : ∀ r ∈ rs, ∀ q ∈ rows, q.take k ≠ r.take k) (hk : Keyed k rs) :
    addRows k rows rs = rows ++ rs := by
  induction rs generalizing rows with
  | nil => simp
  | cons r rs ih =>
    have h0 : addRow k rows r = rows ++ [r] := by
      unfold addRow
      rw [if_neg]
      rintro ⟨q, hq, e⟩
      exact h r List.mem_cons_self q hq e
    rw [addRows_cons, h0, ih _ (List.pairwise_cons.1 hk).2]
    · simp
    · intro r' hr' q hq
      rcases List.mem_append.1 hq with hq | hq
      · exact h r' (List.mem_cons_of_mem _ hr') q hq
      · rw [List.mem_singleton.1 hq]
        exact (List.pairwise_cons.1 hk).1 r' hr'

/-- What holds between two settings of a sweep. -/
structure Stored (cfg : Config) (E : ℤ → Setting → List Row) (erows : List Row) (c : Conn) (w : List Row) : Prop where
  work : c.work cfg.expTable = some (expTable w)
  saved : c.saved cfg.expTable = some (expTable w)
  dyn : ∃ d, c.work cfg.dynTable = some (dynTable d)
  pre : erows <+: w
  rows : ∀ seed s, Fresh erows seed s → Fresh w seed s ∨ E seed s ⊆ w
  src : ∀ r ∈ w, r ∈ erows ∨ ∃ seed s, r ∈ E seed s
  keyed : Keyed 5 erows → Keyed 5 w

theorem fresh_family {E : ℤ → Setting → List Row} (hE : Plan E) {w : List Row} {seed seed' : ℤ} {s s' : Setting}
    (hw : Fresh w seed' s') (hne : ¬ (seed' = seed ∧ s' = s)) : Fresh (addRows 5 w (E seed s)) seed' s' := by
  intro r hr it hk
  rcases mem_addRows hr with hr | hr
  · exact hw r hr it hk
  · obtain ⟨it', hk'⟩ := hE.key seed s r hr
    rw [hk'] at hk
    simp only [List.cons.injEq, Cell.text.injEq, Cell.num.injEq, and_true, Int.cast_inj] at hk
    obtain ⟨a, b, -, d, f⟩ := hk
    refine hne ⟨b.symm, ?_⟩
    cases s; cases s'
    simp_all

theorem sweepSetting_stored {E : ℤ → Setting → List Row} (hE : Plan E) {jac : Jac} {draw : Draw} {cfg : Config}
    (hne : cfg.dynTable ≠ cfg.expTable) {x y : List Arr} {seed : ℤ} {s : Setting}
    (hrows : powerRows env jac draw cfg x y seed s = (E seed s, .ok ())) (override : Bool) {erows w : List Row} {c : Conn}
    (hc : Stored cfg E erows c w) :
    ∃ b c' w', sweepSetting env jac draw cfg x y seed override s c = (.ok b, c') ∧ Stored cfg E erows c' w' ∧ w <+: w' ∧
      (Fresh erows seed s → E seed s ⊆ w') := by
  by_cases hm : override = false ∧ ∃ r ∈ w, Marks seed s r
  · obtain ⟨rfl, hm⟩ := hm
    refine ⟨false, c, w, sweepSetting_skip env jac draw cfg x y seed s hc.work hm, hc, List.prefix_rfl, fun hf => ?_⟩
    refine (hc.rows seed s hf).resolve_left fun h => ?_
    obtain ⟨r, hr, hmr⟩ := hm
    exact h r hr 50 hmr
  · have hrun := sweepSetting_run env jac draw cfg x y seed override s hc.work (by
      by_cases ho : override = true
      · exact .inl ho
      · exact .inr fun h => hm ⟨by simpa using ho, h⟩)
    rw [hrows] at hrun
    have hw := commitRows_work hc.work (E seed s)
    have hsv := commitRows_saved hc.work (E seed s)
    have hpre := addRows_prefix 5 w (E seed s)
    have hfull : Fresh erows seed s → E seed s ⊆ addRows 5 w (E seed s) := fun hf => by
      rcases hc.rows seed s hf with h | h
      · rw [addRows_fresh _ (hE.keyed seed s)]
        · exact List.subset_append_right _ _
        · intro r hr q hq e
          obtain ⟨it, hk⟩ := hE.key seed s r hr
          exact h q hq it (e.trans hk)
      · exact List.Subset.trans h hpre.subset
    refine ⟨true, _, addRows 5 w (E seed s), hrun, ⟨?_, ?_, ?_, hc.pre.trans hpre, fun seed' s' hf => ?_,
      fun r hr => (mem_addRows hr).elim (hc.src r) fun h => .inr ⟨seed, s, h⟩, fun hk => addRows_keyed (hc.keyed hk) _⟩, hpre, hfull⟩
    · rw [hw, Function.update_self]
    · rw [hsv]
      split
      · next h0 => rw [h0]; exact hc.saved
      · rw [Function.update_self]
    · obtain ⟨d, hd⟩ := hc.dyn
      exact ⟨d, by rw [hw, Function.update_of_ne hne]; exact hd⟩
    · by_cases hsame : seed' = seed ∧ s' = s
      · obtain ⟨rfl, rfl⟩ := hsame
        exact .inr (hfull hf)
      · rcases hc.rows seed' s' hf with h | h
        · exact .inl (fresh_family hE h hsame)
        · exact .inr (List.Subset.trans h hpre.subset)

theorem sweepSettings_stored {E : ℤ → Setting → List Row} (hE : Plan E) {jac : Jac} {draws : Draws} {cfg : Config}
    (hne : cfg.dynTable ≠ cfg.expTable) {x y : List Arr} {seed : ℤ} (override : Bool) {erows : List Row} (ss : List Setting)
    (hrows : ∀ s ∈ ss, ∀ draw, powerRows env jac draw cfg x y seed s = (E seed s, .ok ())) :
    ∀ (ran : List Setting) (w : List Row) (c : Conn), Stored cfg E erows c w →
    ∃ c' w', sweepSettings env jac draws cfg x y seed override ran ss c = (.ok (), c') ∧ Stored cfg E erows c' w' ∧ w <+: w' ∧
      ∀ s ∈ ss, Fresh erows seed s → E seed s ⊆ w' := by
  induction ss with
  | nil => exact fun ran w c hc => ⟨c, w, rfl, hc, List.prefix_rfl, by simp⟩
  | cons s ss ih =>
    intro ran w c hc
    obtain ⟨b, c1, w1, r1, st1, p1, f1⟩ := sweepSetting_stored (env := env) hE hne (hrows s List.mem_cons_self (draws seed ran)) override hc
    obtain ⟨c2, w2, r2, st2, p2, f2⟩ := ih (fun s hs => hrows s (List.mem_cons_of_mem _ hs)) (if b then ran ++ [s] else ran) w1 c1 st1
    refine ⟨c2, w2, ?_, st2, p1.trans p2, fun s' hs' hf => ?_⟩
    · rw [sweepSettings, PyM.bind_ok r1]
      exact r2
    · rcases List.mem_cons.1 hs' with rfl | hs'
      · exact List.Subset.trans (f1 hf) p2.subset
      · exact f2 s' hs' hf

theorem sweepSeeds_stored {E : ℤ → Setting → List Row} (hE : Plan E) {jac : Jac} {draws : Draws} {cfg : Config}
    (hne : cfg.dynTable ≠ cfg.expTable) (override : Bool) {erows : List Row} (ss : List Setting) (seeds : List ℤ)
    (hrows : ∀ seed ∈ seeds, ∃ data, cfg.sim seed = .ok data ∧ data ≠ [] ∧ ∀ s ∈ ss, ∀ draw,
      powerRows env jac draw cfg (data.map Prod.fst) (data.map Prod.snd) seed s = (E seed s, .ok ())) :
    ∀ (w : List Row) (c : Conn), Stored cfg E erows c w →
    ∃ c' w', sweepSeeds env jac draws cfg ss override seeds c = (.ok (), c') ∧ Stored cfg E erows c' w' ∧ w <+: w' ∧
      ∀ seed ∈ seeds, ∀ s ∈ ss, Fresh erows seed s → E seed s ⊆ w' := by
  induction seeds with
  | nil => exact fun w c hc => ⟨c, w, rfl, hc, List.prefix_rfl, by simp⟩
  | cons seed seeds ih =>
    intro w c hc
    obtain ⟨data, hsim, hd, hr⟩ := hrows seed List.mem_cons_self
    obtain ⟨d, hdyn⟩ := hc.dyn
    obtain ⟨c0, i1, i2, i3, -⟩ := insertDynamics_run cfg.dynTable seed data 0 hdyn
    have i1' : Db.insertDynamicsData cfg.dynTable data seed c = (.ok (), c0) := i1
    have st0 : Stored cfg E erows c0 w := ⟨by rw [i2, Function.update_of_ne hne.symm]; exact hc.work, by rw [i3]; exact hc.saved,
      ⟨_, by rw [i2, Function.update_self]⟩, hc.pre, hc.rows, hc.src, hc.keyed⟩
    obtain ⟨c1, w1, r1, st1, p1, f1⟩ := sweepSettings_stored (env := env) (draws := draws) hE hne override ss hr [] w c0 st0
    obtain ⟨c2, w2, r2, st2, p2, f2⟩ := ih (fun s hs => hrows s (List.mem_cons_of_mem _ hs)) w1 c1 st1
    refine ⟨c2, w2, ?_, st2, p1.trans p2, fun seed' hs' s hs hf => ?_⟩
    · unfold sweepSeeds
      rw [PyM.lift_bind_eq hsim, PyM.bind_ok i1', if_neg hd, PyM.bind_ok r1]
      exact r2
    · rcases List.mem_cons.1 hs' with rfl | hs'
      · exact List.Subset.trans (f1 s hs hf) p2.subset
      · exact f2 seed' hs' s hs hf

/-- **C71.** A sweep of the growth model with unscented transforms, any positive powers and any dampings runs to its end, whatever data
was simulated and whatever the file holds.  Nothing stored is lost.  For every seed, power and damping without stored rows the file
then holds one row for each of the iterations, with the root mean square error and the mean negative log density of the recursion in plain
numbers after that many passes.  Nothing else is stored, and no key twice. -/
theorem C71_growth_sweep (jac : Jac) (hcalm : ∀ A : Matrix (Fin 1) (Fin 1) ℝ, env.illPos A = false) (draws : Draws) (cfg : Config)
    (hsys : UNGM.init = .ok cfg.system) (hdim : cfg.sysDim = 1) (hN : 2 ≤ cfg.timesteps) (hne : cfg.dynTable ≠ cfg.expTable)
    (seeds : List ℤ) (powers dampings : List ℝ) (hp : ∀ p ∈ powers, 0 < p) (x y : ℤ → ℕ → ℝ)
    (hsim : ∀ seed ∈ seeds, cfg.sim seed = .ok (scalarData cfg.timesteps (x seed) (y seed)))
    (override : Bool) (file : Tables) (drows erows : List Row) (h : Holds cfg file (drows, erows)) :
    ∃ c rows, sweepMain env jac draws cfg seeds ["UT"] powers dampings override (Conn.connect file) = (.ok (), c) ∧
      c.saved cfg.expTable = some (expTable rows) ∧ erows <+: rows ∧
      (∀ seed ∈ seeds, ∀ p ∈ powers, ∀ d ∈ dampings, Fresh erows seed ⟨"UT", p, d⟩ →
        ∀ k, k < cfg.numIter → growthRow cfg.timesteps seed p d (x seed) (y seed) k ∈ rows) ∧
      (∀ r ∈ rows, r ∈ erows ∨ ∃ seed ∈ seeds, ∃ p ∈ powers, ∃ d ∈ dampings, ∃ k < cfg.numIter,
        r = growthRow cfg.timesteps seed p d (x seed) (y seed) k) ∧ (Keyed 5 erows → Keyed 5 rows) := by
  classical
  set E : ℤ → Setting → List Row := fun seed s =>
    if seed ∈ seeds ∧ s ∈ settings ["UT"] powers dampings then
      (List.range cfg.numIter).map (growthRow cfg.timesteps seed s.power s.damping (x seed) (y seed)) else []
    with hEdef
  have hset : ∀ s ∈ settings ["UT"] powers dampings, s.transId = "UT" ∧ s.power ∈ powers ∧ s.damping ∈ dampings := fun s hs => by
    simp only [settings, List.flatMap_cons, List.flatMap_nil, List.append_nil, List.mem_flatMap, List.mem_map] at hs
    obtain ⟨p, hp, d, hd, rfl⟩ := hs
    exact ⟨rfl, hp, hd⟩
  have hE : Plan E := by
    refine ⟨fun seed s r hr => ?_, fun seed s => ?_⟩
    · simp only [hEdef] at hr
      split at hr
      · next ht =>
        obtain ⟨k, -, rfl⟩ := List.mem_map.1 hr
        exact ⟨k + 1, by rw [(hset s ht.2).1]; rfl⟩
      · simp at hr
    · simp only [hEdef]
      split
      · unfold Keyed
        rw [List.pairwise_map]
        refine List.nodup_range.imp fun {a b} hab e => hab ?_
        simp only [growthRow, expRow, List.take_succ_cons, List.take_zero, List.cons.injEq, Cell.num.injEq, true_and, and_true,
          add_left_inj, Nat.cast_inj] at e
        exact e
      · exact List.Pairwise.nil
  obtain ⟨c, c1, c2, -⟩ := create_run hne h
  have st : Stored cfg E erows c erows := ⟨by rw [c2.1, tabs_exp], by rw [c2.2, tabs_exp], ⟨_, by rw [c2.1, tabs_dyn hne]⟩,
    List.prefix_rfl, fun _ _ hf => .inl hf, fun _ hr => .inl hr, id⟩
  obtain ⟨c', w, r, st', pre, full⟩ := sweepSeeds_stored (env := env) (jac := jac) (draws := draws) hE hne override
    (settings ["UT"] powers dampings) seeds (fun seed hseed => ⟨_, hsim seed hseed, by
      simp only [scalarData, ne_eq, List.map_eq_nil_iff, List.range_eq_nil]; omega, fun s hs draw => by
      obtain ⟨ht, hp', -⟩ := hset s hs
      have := powerRows_growth (env := env) jac hcalm draw cfg hsys hdim hN seed (hp _ hp') s.damping (x seed) (y seed)
      have hse : s = ⟨"UT", s.power, s.damping⟩ := by cases s; simp_all
      have hEs : E seed s = (List.range cfg.numIter).map (growthRow cfg.timesteps seed s.power s.damping (x seed) (y seed)) := if_pos ⟨hseed, hs⟩
      rw [hEs, ← this, ← hse, scalarData, List.map_map, List.map_map]
      rfl⟩) erows c st
  refine ⟨c', w, (c1 _).trans r, st'.saved, pre, fun seed hs p hp' d hd hf k hk => ?_, fun r hr => (st'.src r hr).imp id ?_, st'.keyed⟩
  swap
  · rintro ⟨seed, s, h⟩
    simp only [hEdef] at h
    split at h
    · next hs =>
      obtain ⟨k, hk, rfl⟩ := List.mem_map.1 h
      obtain ⟨-, h1, h2⟩ := hset s hs.2
      exact ⟨seed, hs.1, _, h1, _, h2, k, List.mem_range.1 hk, rfl⟩
    · simp at h
  have hmem : (⟨"UT", p, d⟩ : Setting) ∈ settings ["UT"] powers dampings := by
    simp only [settings, List.flatMap_cons, List.flatMap_nil, List.append_nil, List.mem_flatMap, List.mem_map]
    exact ⟨p, hp', d, hd, rfl⟩
  refine full seed hs _ hmem hf ?_
  rw [show E seed ⟨"UT", p, d⟩ = (List.range cfg.numIter).map (growthRow cfg.timesteps seed p d (x seed) (y seed)) from if_pos ⟨hs, hmem⟩]
  exact List.mem_map_of_mem (List.mem_range.2 hk)

/-- **C71.** For power and damping one the row of the first iteration holds the scores of the unscented smoother (with the factor of
precision `10⁻¹⁰` on every prediction, see C40): the baseline "Kalman smoother" that `Experiments/DisplayResults.py` reads. -/
theorem C71_baseline_is_smoother {N : ℕ} (hN : 2 ≤ N) (seed : ℤ) (x y : ℕ → ℝ) :
    growthRow N seed 1 1 x y 0 = expRow "UT" seed 1 1 1
      (scores N ((growthChain 1 1 y).smoothed (1 / 10 ^ 10) (N - 1)) x).1
      (scores N ((growthChain 1 1 y).smoothed (1 / 10 ^ 10) (N - 1)) x).2 := by
  have hr : (growthChain 1 1 y).Regular := unscented_regular params_trans params_meas one_pos one_pos (by norm_num) (by norm_num) _ _ _
  obtain ⟨n, rfl⟩ : ∃ n, N = n + 1 := ⟨N - 1, by omega⟩
  have hest : ∀ i, i < n + 1 → (growthChain 1 1 y).estimates (n + 1) 1 i = (growthChain 1 1 y).smoothed (1 / 10 ^ 10) n i := fun i hi => by
    unfold Chain.estimates
    simp only [Function.iterate_one]
    rw [Chain.first_pass hr rfl rfl]
    dsimp only
    rw [if_pos hi, Chain.smoothedVals_M _ (by omega)]
    have hrd := ofMoments_read true ((growthChain 1 1 y).smoothed eps n i).1
      (Chain.smoothed_pos hr eps_pos.le (n := n) (i := i) (by omega)).1
      (Chain.smoothed_prec hr eps_pos.le (n := n) (i := i) (by omega))
    rw [hrd.1, hrd.2.1]
    rfl
  have hsc : scores (n + 1) ((growthChain 1 1 y).estimates (n + 1) 1) x =
      scores (n + 1) ((growthChain 1 1 y).smoothed (1 / 10 ^ 10) n) x := by
    unfold scores
    congr 1
    · congr 2
      exact Finset.sum_congr rfl fun i hi => by rw [hest i (Finset.mem_range.1 hi)]
    · congr 1
      exact Finset.sum_congr rfl fun i hi => by rw [hest i (Finset.mem_range.1 hi)]
  rw [Nat.add_sub_cancel, growthRow, ← hsc]
  simp

/-- An empty database, one hundred time steps, the ranges of the experiments cut short. -/
example (jac : Jac) (draws : Draws) (x y : ℤ → ℕ → ℝ) : ∃ c rows, sweepMain calmEnv jac draws
    { system := ungm, timesteps := 100, sysDim := 1, numIter := 50, dynTable := "UNGM_SIM", expTable := "UNGM_EXP"
      sim := fun seed => .ok (scalarData 100 (x seed) (y seed)) }
    [101, 201] ["UT"] [0.1, 1] [1, 0.8] false (Conn.connect fun _ => none) = (.ok (), c) ∧
    c.saved "UNGM_EXP" = some (expTable rows) ∧ growthRow 100 201 0.1 0.8 (x 201) (y 201) 49 ∈ rows := by
  obtain ⟨c, rows, h1, h2, -, h3, -⟩ := C71_growth_sweep (env := calmEnv) jac (fun _ => rfl) draws
    { system := ungm, timesteps := 100, sysDim := 1, numIter := 50, dynTable := "UNGM_SIM", expTable := "UNGM_EXP"
      sim := fun seed => .ok (scalarData 100 (x seed) (y seed)) } ungm_init rfl (by norm_num) (by simp) [101, 201] [0.1, 1] [1, 0.8]
    (by simp; norm_num) x y (fun _ _ => rfl) false (fun _ => none) [] [] ⟨.inr ⟨rfl, rfl⟩, .inr ⟨rfl, rfl⟩⟩
  exact ⟨c, rows, h1, h2, h3 201 (by simp) 0.1 (by simp) 0.8 (by simp) (by simp [Fresh]) 49 (by norm_num)⟩

end Verif
