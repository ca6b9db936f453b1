import Verif.Props.Trajectory
import Verif.Props.Total
import Verif.Props.GrowthSweep
import Verif.Lemmas.Keyed

/-!
# What the sweeps of the iterated smoother store (C79)
-/

namespace Verif

open Matrix

section sweep

variable {J : Type} {table : String} {cols : List String} {k : ℕ} {rows : J → Py (List Row)}

/-- **C79.** Suppose the jobs `pre` give the rows `val` and the sweep ends with them or with a failing job.  Then it returns, or raises
the error of that job; the table holds the old rows and those of `pre` (a row with the key of an earlier one is not stored), other
tables are as before; and at any moment the file holds what it held at the start or the rows of the first jobs, never part of the rows
of a job. -/
theorem C79_sweep (hn : cols.Nodup) (hk : k ≤ cols.length) {pre post : List J} {val : J → List Row} (hval : ∀ j ∈ pre, rows j = .ok (val j))
    (hrow : ∀ j ∈ pre, ∀ r ∈ val j, RowFor cols k r) {res : Py Unit}
    (hres : post = [] ∧ res = .ok () ∨ ∃ j l e, post = j :: l ∧ rows j = .error e ∧ res = .error e)
    {file : Tables} {old : List Row} (hfile : Stores cols k table file old) :
    ∃ c, ieksMain table cols k (pre ++ post) rows (Conn.connect file) = (res, c) ∧
      c.saved = withRows cols k table file (addRows k old (pre.flatMap val)) ∧
      (∀ f ∈ c.history, f = file ∨ ∃ i ≤ pre.length, f = withRows cols k table file (addRows k old ((pre.take i).flatMap val))) ∧
      ∀ i ≤ pre.length, withRows cols k table file (addRows k old ((pre.take i).flatMap val)) ∈ c.history := by
  have loop : ∀ (pre : List J), (∀ j ∈ pre, rows j = .ok (val j)) → (∀ j ∈ pre, ∀ r ∈ val j, RowFor cols k r) → ∀ (c : Conn) (old : List Row),
      c.work table = some (keyedTable cols k old) → c.saved = c.work →
      ∃ c' new, (PyM.forEach (pre ++ post) fun j => do
          let rs ← PyM.lift (rows j)
          recordRows table cols rs) c = (res, c') ∧ c'.saved = withRows cols k table c.work (addRows k old (pre.flatMap val)) ∧
        c'.history = c.history ++ new ∧
        (∀ f ∈ new, ∃ i ≤ pre.length, f = withRows cols k table c.work (addRows k old ((pre.take i).flatMap val))) ∧
        ∀ i ≤ pre.length, i ≠ 0 → withRows cols k table c.work (addRows k old ((pre.take i).flatMap val)) ∈ new := by
    intro pre
    induction pre with
    | nil =>
      intro _ _ c old hc hs
      refine ⟨c, [], ?_, ?_, by simp, by simp, by simp⟩
      · rcases hres with ⟨rfl, rfl⟩ | ⟨j, l, e, rfl, h1, rfl⟩
        · rfl
        · rw [List.nil_append, PyM.forEach]
          exact PyM.bind_error (by rw [h1]; rfl) _
      · rw [List.flatMap_nil, addRows_nil, withRows, ← hc, Function.update_eq_self, hs]
    | cons j pre ih =>
      intro hval hrow c old hc hs
      obtain ⟨c1, h1, h2, -, h4, m, h5⟩ := recordRows_run hn hk (val j) (hrow j (by simp)) hc
      have hc1 : c1.work table = some (keyedTable cols k (addRows k old (val j))) := by rw [h4, Function.update_self]
      obtain ⟨c', new, e1, e2, e3, e4, e5⟩ := ih (fun i hi => hval i (by simp [hi])) (fun i hi => hrow i (by simp [hi])) c1 _ hc1 h2
      have hw : ∀ rs, withRows cols k table c1.work (addRows k (addRows k old (val j)) rs) =
          withRows cols k table c.work (addRows k old (val j ++ rs)) := fun rs => by
        rw [withRows, h4, Function.update_idem, addRows_append]; rfl
      have hw1 : c1.work = withRows cols k table c.work (addRows k old (val j)) := h4
      have hw0 : c.saved = withRows cols k table c.work old := by rw [withRows, ← hc, Function.update_eq_self, hs]
      refine ⟨c', List.replicate m c.saved ++ [c1.work] ++ new, ?_, ?_, ?_, ?_, ?_⟩
      · rw [List.cons_append, PyM.forEach]
        refine (PyM.bind_ok (a := ()) ?_ _).trans e1
        rw [PyM.lift_bind_eq (hval j (by simp))]
        exact h1
      · rw [e2, hw, List.flatMap_cons]
      · rw [e3, h5]; simp [List.append_assoc]
      · intro f hf
        simp only [List.mem_append, List.mem_replicate, List.mem_singleton] at hf
        rcases hf with (⟨-, rfl⟩ | rfl) | hf
        · exact ⟨0, by omega, hw0⟩
        · exact ⟨1, by simp, by simpa using hw1⟩
        · obtain ⟨i, hi, rfl⟩ := e4 f hf
          exact ⟨i + 1, by simpa using hi, by rw [hw, List.take_succ_cons, List.flatMap_cons]⟩
      · intro i hi h0
        obtain ⟨i, rfl⟩ := Nat.exists_eq_succ_of_ne_zero h0
        rw [Nat.succ_eq_add_one, List.take_succ_cons, List.flatMap_cons, ← hw]
        rcases Nat.eq_zero_or_pos i with rfl | h
        · simp only [List.take_zero, List.flatMap_nil, addRows_nil]
          rw [withRows, ← hc1, Function.update_eq_self]; simp
        · exact List.mem_append_right _ (e5 i (by simpa using hi) (by omega))
  -- creating the table
  have hcreate : ∃ c0 : Conn, Db.createTable table cols (cols.take k) (Conn.connect file) = (.ok (), c0) ∧
      c0.work = withRows cols k table file old ∧ c0.saved = c0.work ∧ c0.history = [file, c0.work] := by
    refine ⟨_, rfl, ?_, rfl, ?_⟩
    · rcases hfile with h | ⟨h, rfl⟩
      · rw [withRows, ← h, Function.update_eq_self]
        simp [Conn.connect, Conn.record, h]
      · simp [Conn.connect, Conn.record, h, withRows, keyedTable]
    · simp [Conn.connect, Conn.record]
  obtain ⟨c0, h0, hw0, hs0, hh0⟩ := hcreate
  obtain ⟨c, new, h1, h2, h3, h4, h5⟩ := loop pre hval hrow c0 old (by rw [hw0, withRows, Function.update_self]) hs0
  have hw : ∀ rs, withRows cols k table c0.work rs = withRows cols k table file rs := fun rs => by
    rw [hw0, withRows, withRows, Function.update_idem]; rfl
  refine ⟨c, ?_, by rw [h2, hw], fun f hf => ?_, fun i hi => ?_⟩
  · unfold ieksMain
    rw [PyM.bind_ok h0]
    exact h1
  · rw [h3, hh0] at hf
    simp only [List.mem_append, List.mem_cons, List.not_mem_nil, or_false] at hf
    rcases hf with (rfl | rfl) | hf
    · exact .inl rfl
    · exact .inr ⟨0, by omega, by simpa using hw0⟩
    · obtain ⟨i, hi, rfl⟩ := h4 f hf
      exact .inr ⟨i, hi, hw _⟩
  · rw [h3, hh0]
    rcases Nat.eq_zero_or_pos i with rfl | h
    · simp [← hw0]
    · exact List.mem_append_right _ (by rw [← hw]; exact h5 i hi (by omega))

/-- **C79.** If every job succeeds then starting over from what any interrupted run left in the file completes the table to that of an
uninterrupted run; in particular running a second time changes nothing. -/
theorem C79_restart (hn : cols.Nodup) (hk : k ≤ cols.length) {jobs : List J} {val : J → List Row} (hval : ∀ j ∈ jobs, rows j = .ok (val j))
    (hrow : ∀ j ∈ jobs, ∀ r ∈ val j, RowFor cols k r) {file : Tables} {old : List Row} (hfile : Stores cols k table file old) :
    ∃ c, ieksMain table cols k jobs rows (Conn.connect file) = (.ok (), c) ∧
      c.saved = withRows cols k table file (addRows k old (jobs.flatMap val)) ∧
      ∀ f ∈ c.history, ∃ c', ieksMain table cols k jobs rows (Conn.connect f) = (.ok (), c') ∧ c'.saved = c.saved := by
  have run : ∀ {file : Tables} {old : List Row}, Stores cols k table file old → ∃ c,
      ieksMain table cols k jobs rows (Conn.connect file) = (.ok (), c) ∧
      c.saved = withRows cols k table file (addRows k old (jobs.flatMap val)) ∧
      ∀ f ∈ c.history, f = file ∨ ∃ i ≤ jobs.length, f = withRows cols k table file (addRows k old ((jobs.take i).flatMap val)) :=
    fun hfile => by
      obtain ⟨c, h1, h2, h3, -⟩ := C79_sweep (post := []) hn hk hval hrow (.inl ⟨rfl, rfl⟩) hfile
      rw [List.append_nil] at h1
      exact ⟨c, h1, h2, h3⟩
  obtain ⟨c, h1, h2, h3⟩ := run hfile
  refine ⟨c, h1, h2, fun f hf => ?_⟩
  rcases h3 f hf with rfl | ⟨i, -, rfl⟩
  · exact ⟨c, h1, rfl⟩
  · obtain ⟨c', e1, e2, -⟩ := run (file := withRows cols k table file (addRows k old ((jobs.take i).flatMap val)))
      (old := addRows k old ((jobs.take i).flatMap val)) (.inl (by rw [withRows, Function.update_self]))
    refine ⟨c', e1, ?_⟩
    rw [e2, h2, withRows, withRows, withRows, Function.update_idem]
    congr 3
    have : jobs.flatMap val = (jobs.take i).flatMap val ++ (jobs.drop i).flatMap val := by
      rw [← List.flatMap_append, List.take_append_drop]
    rw [this, addRows_append, addRows_again List.prefix_rfl, addRows_append]

end sweep

/-! ## The growth model -/

variable {env : Env} {jac : Jac}

theorem sqErr_scalar (g : Gaussian) {m a : ℝ} (h : g.meanA env = .ok (.v (v1 m))) :
    g.squaredError env (.s a) = g.squaredError env (.v (v1 a)) := by
  unfold Gaussian.squaredError
  rw [h, ok_bind, ok_bind]
  have : (Arr.v (v1 m)).sub (.s a) = (Arr.v (v1 m)).sub (.v (v1 a)) := by
    rw [Arr.sub_vv]
    simp [Arr.sub, Arr.zip, Arr.bdim, Arr.rows, Arr.cols, Arr.bget]
    rfl
  rw [this]

theorem nll_scalar (m v a : ℝ) : (sG m v).nll env (.s a) = (sG m v).nll env (.v (v1 a)) := by
  unfold Gaussian.nll
  rw [(sG_moments env m v).meanA, (sG_moments env m v).covA]
  rfl

/-- Scores of scalar estimates against numbers. -/
theorem scores_scalar {N : ℕ} (hN : 0 < N) {est : ℕ → ℝ × ℝ} (hpos : ∀ i < N, 0 < (est i).2) (x : ℕ → ℝ) :
    Metrics.rmse env ((List.range N).map fun i => sG (est i).1 (est i).2) ((List.range N).map fun i => .s (x i)) = .ok (scores N est x).1 ∧
    Metrics.nll env ((List.range N).map fun i => sG (est i).1 (est i).2) ((List.range N).map fun i => .s (x i)) = .ok (scores N est x).2 := by
  let h : Heap := ⟨fun i => { Node.init 0 0 with marginal := sG (est i).1 (est i).2 }, 0⟩
  have hm := nodeMetrics_scalar (env := env) (h := h) (s := 0) (est := est) (x := x) hN fun i hi =>
    ⟨false, ⟨by rw [Nat.zero_add]; exact (sG_moments env _ _).1, by rw [Nat.zero_add]; exact (sG_moments env _ _).2⟩, hpos i hi⟩
  have hst : (List.range' 0 N).map (fun r => (h.get r).marginal) = (List.range N).map fun i => sG (est i).1 (est i).2 := by
    rw [← List.range_eq_range']
  have e1 : Metrics.rmse env ((List.range N).map fun i => sG (est i).1 (est i).2) ((List.range N).map fun i => .s (x i)) =
      Metrics.rmse env ((List.range N).map fun i => sG (est i).1 (est i).2) ((List.range N).map fun i => .v (v1 (x i))) := by
    unfold Metrics.rmse
    rw [List.zip_map', List.zip_map', List.mapM_map, List.mapM_map]
    simp only [Function.comp_def, sqErr_scalar _ (sG_moments env _ _).meanA]
  have e2 : Metrics.nll env ((List.range N).map fun i => sG (est i).1 (est i).2) ((List.range N).map fun i => .s (x i)) =
      Metrics.nll env ((List.range N).map fun i => sG (est i).1 (est i).2) ((List.range N).map fun i => .v (v1 (x i))) := by
    unfold Metrics.nll
    rw [List.zip_map', List.zip_map', List.mapM_map, List.mapM_map]
    simp only [Function.comp_def, nll_scalar]
  rw [e1, e2]
  unfold Metrics.nodeMetrics at hm
  simp only [hst] at hm
  obtain ⟨r, hr, hm⟩ := py_bind_ok hm
  obtain ⟨l, hl, hm⟩ := py_bind_ok hm
  rw [py_pure, Except.ok.injEq] at hm
  rw [hr, hl, ← hm]
  exact ⟨rfl, rfl⟩

/-- The transition function of the growth model at time `t`. -/
noncomputable def growthStep (t : ℝ) (x : Fin 1 → ℝ) : Fin 1 → ℝ := fun i => 0.5 * x i + 25 * x i / (1 + x i ^ 2) + 8 * Real.cos (1.2 * t)

/-- What the growth model draws from. -/
noncomputable def growthLaws : Laws 1 1 := ⟨v1 0, m1 5, m1 1, m1 10⟩

/-- The row that the script stores for a seed: estimates `est` are scored against the states of the trajectory. -/
noncomputable def smootherRow (rng : Rng) (N numIter : ℕ) (seed : ℤ) (est : ℕ → ℝ × ℝ) : Row :=
  [.num seed, .num numIter, .num (scores N est fun i => trajectory rng growthLaws growthStep 1 (i + 1) 0).1,
    .num (scores N est fun i => trajectory rng growthLaws growthStep 1 (i + 1) 0).2]

/-- The estimates are what the iterated smoother returns for the simulated measurements. -/
def GrowthEstimates (env : Env) (jac : Jac) (rng : Rng) (N numIter : ℕ) (est : ℕ → ℝ × ℝ) : Prop :=
  ∃ sys data, UNGM.init = .ok sys ∧ simData env rng 1 1 sys N = .ok data ∧
    (IEKS.call env jac (IEKS.init env jac sys).1 (data.map Prod.snd) numIter (IEKS.init env jac sys).2).1 =
      .ok ((List.range N).map fun i => sG (est i).1 (est i).2) ∧ ∀ i < N, 0 < (est i).2

theorem Follows.map_fst {n k : ℕ} {row : Bool} {rng : Rng} {L : Laws n k} {F : ℝ → (Fin n → ℝ) → Fin n → ℝ} {H : (Fin n → ℝ) → Fin k → ℝ} {dt : ℝ} {N : ℕ}
    {data : List (Arr × Arr)} (h : Follows row rng L F H dt N data) :
    data.map Prod.fst = (List.range N).map fun i => if row then Arr.m (of fun _ : Fin 1 => trajectory rng L F dt (i + 1))
      else .v (trajectory rng L F dt (i + 1)) := by
  refine List.ext_getElem (by simp [h.length]) fun i h1 h2 => ?_
  have hi : i < data.length := by simpa using h1
  rw [List.getElem_map, List.getElem_map, List.getElem_range]
  exact h.state i _ (List.getElem?_eq_getElem hi)

theorem stackItems_two {l : List Arr} (h2 : 2 ≤ l.length) (h : ∀ a ∈ l, ∀ b ∈ l, a.shape = b.shape) :
    stackItems l = .ok (l.map Arr.squeeze) := by
  match l, h2 with
  | a :: b :: l, _ =>
    unfold stackItems
    refine if_pos ?_
    rw [List.all_eq_true]
    intro c hc
    rw [beq_iff_eq]
    exact h c (by simp [List.mem_cons.1 hc]) a (by simp)

/-- The simulation and the iterated smoother on the growth model. -/
theorem growth_estimates (hjac : CorrectJac jac) (rng : Rng) {N : ℕ} (hN : N ≠ 0) (numIter : ℕ) : ∃ (data : List (Arr × Arr)) (est : ℕ → ℝ × ℝ),
    Follows false rng growthLaws growthStep (fun x (i : Fin 1) => x i ^ 2 / 20) 1 N data ∧ simData env rng 1 1 ungm N = .ok data ∧
    (IEKS.call env jac (IEKS.init env jac ungm).1 (data.map Prod.snd) numIter (IEKS.init env jac ungm).2).1 =
      .ok ((List.range N).map fun i => sG (est i).1 (est i).2) ∧ ∀ i < N, 0 < (est i).2 := by
  obtain ⟨sys, data, h1, h2, h3⟩ := C78_growth (env := env) rng N
  rw [ungm_init, Except.ok.injEq] at h1
  subst h1
  have hlen := h3.length
  have hne : data.map Prod.snd ≠ [] := fun e => hN (by rw [← hlen]; simpa using e)
  have htame := (⟨.inl fun t => ⟨_, (ungm_transition t none).vec, (ungm_transition t none).differentiable⟩,
    .inl fun t => ⟨_, (ungm_measurement (some t) none).vec, (ungm_measurement (some t) none).differentiable⟩⟩ :
    Tame ungm.transition 1 1 ∧ Tame ungm.measurement 1 1)
  obtain ⟨rs, s', e1, e2, e3, -⟩ := IEKS.C76_ieks_total (env := env) (jac := jac) (K := (IEKS.init env jac ungm).1) (Q := m1 1) (R := m1 10)
    hjac rfl rfl rfl (m1_posDef.2 one_pos) rfl (m1_posDef.2 (by norm_num)) htame.1 htame.2 (sG_moments env 0 5) (m1_posDef.2 (by norm_num))
    (data.map Prod.snd) hne (fun y hy => by
      obtain ⟨v, hv⟩ := h3.points y hy
      exact ⟨v, hv.isVec⟩) numIter (IEKS.init env jac ungm).2 ⟨htame.1, htame.2⟩
  have hest : ∀ i, ∃ q : ℝ × ℝ, ∀ hi : i < rs.length, rs[i] = sG q.1 q.2 ∧ 0 < q.2 := fun i => by
    by_cases hi : i < rs.length
    · obtain ⟨m, C, hm, hC⟩ := e3 _ (List.getElem_mem hi)
      refine ⟨(m 0, C 0 0), fun _ => ⟨?_, ?_⟩⟩
      · rw [hm]; unfold sG; rw [← v1_ext, ← m1_ext]
      · rw [m1_ext C] at hC; exact m1_posDef.1 hC
    · exact ⟨(0, 0), fun h => absurd h hi⟩
  choose est hest using hest
  have hrl : rs.length = N := by rw [e2, List.length_map, hlen]
  refine ⟨data, est, h3, h2, ?_, fun i hi => (hest i (by omega)).2⟩
  rw [e1]
  show Except.ok rs = _
  congr 1
  refine List.ext_getElem (by simp [hrl]) fun i h1 h2 => ?_
  rw [List.getElem_map, List.getElem_range, (hest i h1).1]

theorem growth_rows (hjac : CorrectJac jac) (rng : ℤ → Rng) {N : ℕ} (hN : 2 ≤ N) (numIter : ℕ) (seed : ℤ) :
    ∃ est, GrowthEstimates env jac (rng seed) N numIter est ∧
      IeksSweep.ungmRows env jac rng N numIter seed = .ok [smootherRow (rng seed) N numIter seed est] := by
  obtain ⟨data, est, h3, h2, h1, hpos⟩ := growth_estimates (env := env) (N := N) hjac (rng seed) (by omega) numIter
  refine ⟨est, ⟨ungm, data, ungm_init, h2, h1, hpos⟩, ?_⟩
  have hx : stackItems (data.map Prod.fst) = .ok ((List.range N).map fun i => .s (trajectory (rng seed) growthLaws growthStep 1 (i + 1) 0)) := by
    rw [h3.map_fst, stackItems_two (by simpa using hN)]
    · simp
    · intro a ha b hb
      obtain ⟨i, -, rfl⟩ := List.mem_map.1 ha
      obtain ⟨j, -, rfl⟩ := List.mem_map.1 hb
      rfl
  obtain ⟨s1, s2⟩ := scores_scalar (env := env) (by omega) hpos fun i => trajectory (rng seed) growthLaws growthStep 1 (i + 1) 0
  unfold IeksSweep.ungmRows ieksScores
  rw [ungm_init]
  have hd : data.isEmpty = false := by
    have := h3.length
    cases data
    · simp at this; omega
    · rfl
  simp only [ok_bind, h2, hd, h1, hx, s1, s2, py_pure]
  rfl

/-- **C79.** The sweep over the growth model completes for every generator, every list of seeds, every number of iterations and of
steps from two on; per seed (the first time it occurs, and unless its key is stored already) it adds one row with the scores of what
the iterated smoother returns for the simulated data. -/
theorem C79_growth (hjac : CorrectJac jac) (rng : ℤ → Rng) {N : ℕ} (hN : 2 ≤ N) (numIter : ℕ) (seeds : List ℤ) {file : Tables}
    {old : List Row} (hfile : Stores ["Seed", "Iter", "RMSE", "NLL"] 2 "UNGM_EXP" file old) :
    ∃ est : ℤ → ℕ → ℝ × ℝ, (∀ seed, GrowthEstimates env jac (rng seed) N numIter (est seed)) ∧
      ∃ c, IeksSweep.ungm env jac rng N numIter seeds (Conn.connect file) = (.ok (), c) ∧
        c.saved = withRows ["Seed", "Iter", "RMSE", "NLL"] 2 "UNGM_EXP" file
          (addRows 2 old (seeds.map fun seed => smootherRow (rng seed) N numIter seed (est seed))) ∧
        ∀ f ∈ c.history, ∃ c', IeksSweep.ungm env jac rng N numIter seeds (Conn.connect f) = (.ok (), c') ∧ c'.saved = c.saved := by
  choose est h1 h2 using fun seed => growth_rows (env := env) hjac rng hN numIter seed
  refine ⟨est, h1, ?_⟩
  obtain ⟨c, e1, e2, e3⟩ := C79_restart (cols := ["Seed", "Iter", "RMSE", "NLL"]) (k := 2) (table := "UNGM_EXP") (jobs := seeds)
    (by decide) (by decide) (rows := IeksSweep.ungmRows env jac rng N numIter)
    (val := fun seed => [smootherRow (rng seed) N numIter seed (est seed)]) (fun j _ => h2 j) (fun j _ r hr => by
      rw [List.mem_singleton.1 hr]
      exact ⟨rfl, by simp [smootherRow]⟩) hfile
  refine ⟨c, e1, ?_, e3⟩
  rw [e2]
  congr 2
  clear e1 e2 e3
  induction seeds with
  | nil => rfl
  | cons a l ih => rw [List.flatMap_cons, ih]; rfl

/-- **C79.** With a single step the script raises a `TypeError` for its first seed: squeezing leaves a number, over which `rmse` cannot
iterate.  With none it raises a `ValueError`.  In both cases it stores no row. -/
theorem C79_growth_short (hjac : CorrectJac jac) (rng : ℤ → Rng) {N : ℕ} (hN : N ≤ 1) (numIter : ℕ) (seed : ℤ) (seeds : List ℤ) {file : Tables}
    {old : List Row} (hfile : Stores ["Seed", "Iter", "RMSE", "NLL"] 2 "UNGM_EXP" file old) :
    ∃ c, IeksSweep.ungm env jac rng N numIter (seed :: seeds) (Conn.connect file) = (.error (if N = 0 then .value else .type), c) ∧
      c.saved = withRows ["Seed", "Iter", "RMSE", "NLL"] 2 "UNGM_EXP" file old := by
  have hrow : IeksSweep.ungmRows env jac rng N numIter seed = .error (if N = 0 then .value else .type) := by
    unfold IeksSweep.ungmRows ieksScores
    rw [ungm_init]
    rcases Nat.eq_zero_or_pos N with rfl | h0
    · obtain ⟨sys, data, h1, h2, h3⟩ := C78_growth (env := env) (rng seed) 0
      rw [ungm_init, Except.ok.injEq] at h1
      subst h1
      have hd : data = [] := by simpa using h3.length
      simp only [ok_bind, h2, hd]
      rfl
    · obtain rfl : N = 1 := by omega
      obtain ⟨data, est, h3, h2, h1, -⟩ := growth_estimates (env := env) (N := 1) hjac (rng seed) one_ne_zero numIter
      have hd : data.isEmpty = false := by
        have := h3.length
        cases data
        · simp at this
        · rfl
      have hx : stackItems (data.map Prod.fst) = .error .type := by
        rw [h3.map_fst]
        simp [stackItems]
      simp only [ok_bind, h2, hd, h1, hx]
      rfl
  obtain ⟨c, h1, h2, -⟩ := C79_sweep (cols := ["Seed", "Iter", "RMSE", "NLL"]) (k := 2) (table := "UNGM_EXP") (by decide) (by decide) (pre := [])
    (post := seed :: seeds) (rows := IeksSweep.ungmRows env jac rng N numIter) (val := fun _ => []) (by simp) (by simp)
    (.inr ⟨seed, seeds, _, rfl, hrow, rfl⟩) hfile
  exact ⟨c, h1, h2⟩

/-! ## Lorenz 96 -/

/-- **C79.** Without a stored initial condition, or with one that an earlier run stored (of shape `(1, dim)`), the sweep over Lorenz 96
raises an `AssertionError` for its first dimension and stores no row. -/
theorem C79_lorenz_fresh (rng : ℤ → Rng) {stored : ℕ → Option Arr} {dim : ℕ} (hd : 2 ≤ dim)
    (hst : stored dim = none ∨ ∃ X : Matrix (Fin 1) (Fin dim) ℝ, stored dim = some (.m X)) (N numIter : ℕ) (dims : List ℕ) (seed : ℤ)
    (seeds : List ℤ) {file : Tables} {old : List Row} (hfile : Stores ["dim", "Seed", "Iter", "RMSE", "NLL"] 3 "L96_EXP" file old) :
    ∃ c, IeksSweep.l96 env jac rng stored N numIter (dim :: dims) (seed :: seeds) (Conn.connect file) = (.error .assertion, c) ∧
      c.saved = withRows ["dim", "Seed", "Iter", "RMSE", "NLL"] 3 "L96_EXP" file old := by
  have hrow : IeksSweep.l96Rows env jac rng stored N numIter (dim, seed) = .error .assertion := by
    have : L96.init 0.1 1 0.05 dim 8 (stored dim) = .error .assertion := by
      rcases hst with h | ⟨X, h⟩
      · rw [h]; exact C54_constructor_fails _ _ _ _ _ hd
      · have h1 : (1 : ℕ) ≠ dim := by omega
        rw [h]
        simp only [L96.init, ok_bind, Arr.shape0_m, ne_eq, h1, not_false_eq_true, if_true]
        rfl
    unfold IeksSweep.l96Rows
    rw [this]
    rfl
  obtain ⟨c, h1, h2, -⟩ := C79_sweep (cols := ["dim", "Seed", "Iter", "RMSE", "NLL"]) (k := 3) (table := "L96_EXP") (by decide) (by decide)
    (pre := []) (post := (dim :: dims) ×ˢ (seed :: seeds)) (rows := IeksSweep.l96Rows env jac rng stored N numIter) (val := fun _ => [])
    (by simp) (by simp) (.inr ⟨(dim, seed), _, _, rfl, hrow, rfl⟩) hfile
  exact ⟨c, h1, h2⟩

/-- Root mean square error and mean negative log density of `N` estimates `est i`, mean and covariance, of the points `x i`. -/
noncomputable def vecScores {n : ℕ} (N : ℕ) (est : ℕ → (Fin n → ℝ) × Matrix (Fin n) (Fin n) ℝ) (x : ℕ → Fin n → ℝ) : ℝ × ℝ :=
  (Real.sqrt ((∑ i ∈ Finset.range N, sqDist (est i).1 (x i)) / N),
    (∑ i ∈ Finset.range N, (n * Real.log (2 * Real.pi) + Real.log (est i).2.det +
      (x i - (est i).1) ⬝ᵥ (est i).2⁻¹ *ᵥ (x i - (est i).1)) / 2) / N)

theorem mapM_cases {α β : Type} {f : α → Py β} {g : α → β} {e : Err} (l : List α) (h : ∀ a ∈ l, f a = .ok (g a) ∨ f a = .error e) :
    l.mapM f = .ok (l.map g) ∨ l.mapM f = .error e ∧ ∃ a ∈ l, f a = .error e := by
  induction l with
  | nil => exact .inl rfl
  | cons a l ih =>
    rw [List.mapM_cons]
    rcases h a (by simp) with h1 | h1
    · rw [h1, ok_bind]
      rcases ih fun b hb => h b (by simp [hb]) with h2 | ⟨h2, b, hb, hb'⟩
      · exact .inl (by rw [h2]; rfl)
      · exact .inr ⟨by rw [h2]; rfl, b, by simp [hb], hb'⟩
    · exact .inr ⟨by rw [h1]; rfl, a, by simp, h1⟩

/-- The density exists, or scipy takes the covariance for singular. -/
theorem nll_cases {n : ℕ} {g : Gaussian} {μ x : Fin n → ℝ} {C : Matrix (Fin n) (Fin n) ℝ} (hg : HasMoments env g μ C) (hC : C.PosDef) :
    g.nll env (.v x) = .ok ((n * Real.log (2 * Real.pi) + Real.log C.det + (x - μ) ⬝ᵥ C⁻¹ *ᵥ (x - μ)) / 2) ∨
      g.nll env (.v x) = .error .outOfModel := by
  unfold Gaussian.nll
  have h1 : mvnCov n (.m C) = .ok C := dif_pos ⟨rfl, rfl⟩
  have h2 : mvnPoint n (.v x) = .ok x := dif_pos rfl
  rw [hg.meanA, ok_bind]
  simp only [mvnMean, ok_bind, hg.covA, h1, h2, mvnNegLog]
  have hl := lowerSym_of_symm (posDef_symm hC)
  have hC' : (lowerSym C).PosDef := by rwa [hl]
  split
  · exact .inl (by rw [hl])
  · rw [if_neg]
    · exact .inr rfl
    · rintro ⟨i, hi⟩
      have h3 := hi i
      have h4 := hC'.eigenvalues_pos i
      rw [abs_of_pos h4] at h3
      norm_num at h3
      linarith

theorem vecScores_eq {n N : ℕ} (hN : 0 < N) {est : ℕ → (Fin n → ℝ) × Matrix (Fin n) (Fin n) ℝ}
    (hpos : ∀ i < N, (est i).2.PosDef) (x : ℕ → Fin n → ℝ) :
    Metrics.rmse env ((List.range N).map fun i => Gaussian.ofMoment (.v (est i).1) (.m (est i).2)) ((List.range N).map fun i => .v (x i)) =
      .ok (vecScores N est x).1 ∧
    (Metrics.nll env ((List.range N).map fun i => Gaussian.ofMoment (.v (est i).1) (.m (est i).2)) ((List.range N).map fun i => .v (x i)) =
        .ok (vecScores N est x).2 ∨
      Metrics.nll env ((List.range N).map fun i => Gaussian.ofMoment (.v (est i).1) (.m (est i).2)) ((List.range N).map fun i => .v (x i)) =
        .error .outOfModel ∧ ∃ i < N, ¬ Spread (est i).2) := by
  have hs : ∀ f : ℕ → ℝ, ((List.range N).map f).sum = ∑ i ∈ Finset.range N, f i := fun f => by
    rw [Finset.sum_eq_multiset_sum, Finset.range_val, Multiset.range, Multiset.map_coe, Multiset.sum_coe]
  constructor
  · have hc : Compared env ((List.range N).map fun i => Gaussian.ofMoment (.v (est i).1) (.m (est i).2)) ((List.range N).map fun i => .v (x i))
        ((List.range N).map fun i => ((est i).1, x i)) := by
      unfold Compared
      rw [List.zip_map', List.forall₂_map_left_iff, List.forall₂_map_right_iff, List.forall₂_same]
      exact fun i _ => ⟨⟨_, (hasMoments_ofMoment env _ _).meanA, .inl rfl⟩, .inl rfl⟩
    rw [(C58_rmse hc (by simpa using hN.ne')).1, rootMeanSq, List.map_map, List.length_map, List.length_range, hs]
    rfl
  · unfold Metrics.nll
    rw [List.zip_map', List.mapM_map]
    rcases mapM_cases (f := (fun p : Gaussian × Arr => p.1.nll env p.2) ∘ fun i => (Gaussian.ofMoment (.v (est i).1) (.m (est i).2), Arr.v (x i)))
      (g := fun i => (n * Real.log (2 * Real.pi) + Real.log (est i).2.det + (x i - (est i).1) ⬝ᵥ (est i).2⁻¹ *ᵥ (x i - (est i).1)) / 2)
      (e := .outOfModel) (List.range N) (fun i hi => nll_cases (hasMoments_ofMoment env _ _) (hpos i (List.mem_range.1 hi))) with h | ⟨h, i, hi, hi'⟩
    · left
      rw [h, ok_bind, Metrics.mean, if_neg (by simpa using hN.ne'), hs, List.length_map, List.length_range]
      rfl
    · right
      rw [h]
      refine ⟨rfl, i, List.mem_range.1 hi, fun hsp => ?_⟩
      have := C64_formula (env := env) (hasMoments_ofMoment env (est i).1 _) (hpos i (List.mem_range.1 hi)) hsp (a := .v (x i)) (.inl rfl)
      simp only [Function.comp_apply] at hi'
      rw [this] at hi'
      simp at hi'

/-- What Lorenz 96 with the parameters of the script draws from. -/
noncomputable def lorenzLaws {dim : ℕ} (x0 : Fin dim → ℝ) : Laws dim dim := ⟨x0, 1, (0.1 : ℝ) • 1, (1 : ℝ) • 1⟩

/-- What the script computes for one dimension and seed: `est` are the estimates of the iterated smoother on the simulated data, `x` the
simulated states. -/
def LorenzRun (env : Env) (jac : Jac) (rng : Rng) {dim : ℕ} (x0 : Fin dim → ℝ) (N numIter : ℕ)
    (est : ℕ → (Fin dim → ℝ) × Matrix (Fin dim) (Fin dim) ℝ) (x : ℕ → Fin dim → ℝ) : Prop :=
  ∃ sys data Φ, L96.init 0.1 1 0.05 dim 8 (some (.v x0)) = .ok sys ∧ RowFunc (fun x => sys.transition x none none) Φ ∧
    simData env rng dim dim sys N = .ok data ∧ (∀ i, x i = trajectory rng (lorenzLaws x0) (fun _ => Φ) 1 (i + 1)) ∧
    (IEKS.call env jac (IEKS.init env jac sys).1 (data.map Prod.snd) numIter (IEKS.init env jac sys).2).1 =
      .ok ((List.range N).map fun i => Gaussian.ofMoment (.v (est i).1) (.m (est i).2)) ∧ ∀ i < N, (est i).2.PosDef

theorem lorenz_rows (hjac : CorrectJac jac) (rng : ℤ → Rng) {stored : ℕ → Option Arr} {dim : ℕ} (hd : 2 ≤ dim) {x0 : Fin dim → ℝ}
    (hst : stored dim = some (.v x0)) {N : ℕ} (hN : 2 ≤ N) (numIter : ℕ) (seed : ℤ) :
    ∃ est x, LorenzRun env jac (rng seed) x0 N numIter est x ∧
      (IeksSweep.l96Rows env jac rng stored N numIter (dim, seed) =
        .ok [[.num dim, .num seed, .num numIter, .num (vecScores N est x).1, .num (vecScores N est x).2]] ∨
      IeksSweep.l96Rows env jac rng stored N numIter (dim, seed) = .error .outOfModel ∧ ∃ i < N, ¬ Spread (est i).2) := by
  obtain ⟨sys, hsys, -⟩ := C54_stored_works 0.1 1 0.05 8 x0
  obtain ⟨Φ, data, hΦ, h2, h3⟩ := C78_lorenz (env := env) x0 hsys (rng seed) N
  have hlen := h3.length
  have hne : data.map Prod.snd ≠ [] := fun e => by
    have : data.length = 0 := by simpa using e
    omega
  obtain ⟨t1, t2, t3, t4, t5, t6⟩ := l96_tame hd hsys
  have hg : HasMoments env sys.initState x0 (1 : Matrix (Fin dim) (Fin dim) ℝ) := by rw [t4]; exact hasMoments_ofMoment ..
  obtain ⟨rs, s', e1, e2, e3, -⟩ := IEKS.C76_ieks_total (env := env) (jac := jac) (K := (IEKS.init env jac sys).1)
    hjac rfl rfl t5 (PosDef.one.smul (by norm_num)) t6 (PosDef.one.smul one_pos) t1 t2 hg PosDef.one
    (data.map Prod.snd) hne (fun y hy => by
      obtain ⟨v, hv⟩ := h3.points y hy
      exact ⟨v, hv.isVec⟩) numIter (IEKS.init env jac sys).2 ⟨t1, t2⟩
  have hest : ∀ i, ∃ q : (Fin dim → ℝ) × Matrix (Fin dim) (Fin dim) ℝ, ∀ hi : i < rs.length,
      rs[i] = Gaussian.ofMoment (.v q.1) (.m q.2) ∧ q.2.PosDef := fun i => by
    by_cases hi : i < rs.length
    · obtain ⟨m, C, hm, hC⟩ := e3 _ (List.getElem_mem hi)
      exact ⟨(m, C), fun _ => ⟨hm, hC⟩⟩
    · exact ⟨(0, 0), fun h => absurd h hi⟩
  choose est hest using hest
  have hrl : rs.length = N := by rw [e2, List.length_map, hlen]
  have hcall : (IEKS.call env jac (IEKS.init env jac sys).1 (data.map Prod.snd) numIter (IEKS.init env jac sys).2).1 =
      .ok ((List.range N).map fun i => Gaussian.ofMoment (.v (est i).1) (.m (est i).2)) := by
    rw [e1]
    show Except.ok rs = _
    congr 1
    refine List.ext_getElem (by simp [hrl]) fun i h1 h2 => ?_
    rw [List.getElem_map, List.getElem_range, (hest i h1).1]
  have hpos : ∀ i < N, (est i).2.PosDef := fun i hi => (hest i (by omega)).2
  refine ⟨est, fun i => trajectory (rng seed) (lorenzLaws x0) (fun _ => Φ) 1 (i + 1), ⟨sys, data, Φ, hsys, hΦ, h2, fun _ => rfl, hcall, hpos⟩, ?_⟩
  have hx : stackItems (data.map Prod.fst) = .ok ((List.range N).map fun i => .v (trajectory (rng seed) (lorenzLaws x0) (fun _ => Φ) 1 (i + 1))) := by
    rw [h3.map_fst, stackItems_two (by simpa using hN)]
    · rw [List.map_map]
      congr 1
      refine List.map_congr_left fun i _ => ?_
      exact Arr.squeeze_row _ (by omega)
    · intro a ha b hb
      obtain ⟨i, -, rfl⟩ := List.mem_map.1 ha
      obtain ⟨j, -, rfl⟩ := List.mem_map.1 hb
      rfl
  obtain ⟨s1, s2⟩ := vecScores_eq (env := env) (N := N) (by omega) hpos fun i => trajectory (rng seed) (lorenzLaws x0) (fun _ => Φ) 1 (i + 1)
  have hde : data.isEmpty = false := by
    cases data
    · simp at hlen; omega
    · rfl
  unfold IeksSweep.l96Rows ieksScores
  rw [hst]
  rcases s2 with s2 | ⟨s2, h⟩
  · left
    simp only [hsys, ok_bind, h2, hde, hcall, hx, s1, s2, py_pure]
    rfl
  · refine .inr ⟨?_, h⟩
    simp only [hsys, ok_bind, h2, hde, hcall, hx, s1, s2, py_pure]
    rfl

/-- **C79.** With stored vectors as initial conditions the sweep over Lorenz 96 computes estimates for every dimension from two on and
every seed, and adds one row each; it stops early only when scipy takes the covariance of an estimate for singular. -/
theorem C79_lorenz (hjac : CorrectJac jac) (rng : ℤ → Rng) {stored : ℕ → Option Arr} {dims : List ℕ} (hd : ∀ d ∈ dims, 2 ≤ d)
    (x0 : (d : ℕ) → Fin d → ℝ) (hst : ∀ d ∈ dims, stored d = some (.v (x0 d))) {N : ℕ} (hN : 2 ≤ N) (numIter : ℕ) (seeds : List ℤ)
    {file : Tables} {old : List Row} (hfile : Stores ["dim", "Seed", "Iter", "RMSE", "NLL"] 3 "L96_EXP" file old) :
    ∃ (pre post : List (ℕ × ℤ)) (score : ℕ × ℤ → ℝ × ℝ) (res : Py Unit) (c : Conn), dims ×ˢ seeds = pre ++ post ∧
      (∀ job ∈ pre, ∃ est x, LorenzRun env jac (rng job.2) (x0 job.1) N numIter est x ∧ score job = vecScores N est x) ∧
      (post = [] ∧ res = .ok () ∨ ∃ job l est x, post = job :: l ∧ res = .error .outOfModel ∧
        LorenzRun env jac (rng job.2) (x0 job.1) N numIter est x ∧ ∃ i < N, ¬ Spread (est i).2) ∧
      IeksSweep.l96 env jac rng stored N numIter dims seeds (Conn.connect file) = (res, c) ∧
      c.saved = withRows ["dim", "Seed", "Iter", "RMSE", "NLL"] 3 "L96_EXP" file (addRows 3 old (pre.map fun job =>
        [.num job.1, .num job.2, .num numIter, .num (score job).1, .num (score job).2])) := by
  have hjob : ∀ job : ℕ × ℤ, job ∈ dims ×ˢ seeds → ∃ est x, LorenzRun env jac (rng job.2) (x0 job.1) N numIter est x ∧
      (IeksSweep.l96Rows env jac rng stored N numIter job =
        .ok [[.num job.1, .num job.2, .num numIter, .num (vecScores N est x).1, .num (vecScores N est x).2]] ∨
      IeksSweep.l96Rows env jac rng stored N numIter job = .error .outOfModel ∧ ∃ i < N, ¬ Spread (est i).2) :=
    fun ⟨d, seed⟩ h => by
      have hm := (List.mem_product.1 h).1
      exact lorenz_rows (env := env) hjac rng (hd d hm) (hst d hm) hN numIter seed
  have split : ∀ jobs : List (ℕ × ℤ), (∀ job ∈ jobs, job ∈ dims ×ˢ seeds) → ∃ (pre post : List (ℕ × ℤ)) (res : Py Unit), jobs = pre ++ post ∧
      (∀ job ∈ pre, ∃ q : ℝ × ℝ, (∃ est x, LorenzRun env jac (rng job.2) (x0 job.1) N numIter est x ∧ q = vecScores N est x) ∧
        IeksSweep.l96Rows env jac rng stored N numIter job = .ok [[.num job.1, .num job.2, .num numIter, .num q.1, .num q.2]]) ∧
      (post = [] ∧ res = .ok () ∨ ∃ job l, post = job :: l ∧ res = .error .outOfModel ∧
        IeksSweep.l96Rows env jac rng stored N numIter job = .error .outOfModel ∧
        ∃ est x, LorenzRun env jac (rng job.2) (x0 job.1) N numIter est x ∧ ∃ i < N, ¬ Spread (est i).2) := by
    intro jobs
    induction jobs with
    | nil => exact fun _ => ⟨[], [], .ok (), rfl, by simp, .inl ⟨rfl, rfl⟩⟩
    | cons job jobs ih =>
      intro hall
      obtain ⟨est, x, h1, h2⟩ := hjob job (hall job (by simp))
      rcases h2 with h2 | ⟨h2, h2'⟩
      · obtain ⟨pre, post, res, e1, e2, e3⟩ := ih fun j hj => hall j (by simp [hj])
        refine ⟨job :: pre, post, res, by rw [e1]; rfl, fun j hj => ?_, e3⟩
        rcases List.mem_cons.1 hj with rfl | hj
        · exact ⟨vecScores N est x, ⟨est, x, h1, rfl⟩, h2⟩
        · exact e2 j hj
      · exact ⟨[], job :: jobs, .error .outOfModel, rfl, by simp, .inr ⟨job, jobs, rfl, rfl, h2, est, x, h1, h2'⟩⟩
  obtain ⟨pre, post, res, h1, h2, h3⟩ := split _ fun _ h => h
  have h2' : ∀ job, ∃ q : ℝ × ℝ, job ∈ pre →
      (∃ est x, LorenzRun env jac (rng job.2) (x0 job.1) N numIter est x ∧ q = vecScores N est x) ∧
        IeksSweep.l96Rows env jac rng stored N numIter job = .ok [[.num job.1, .num job.2, .num numIter, .num q.1, .num q.2]] := fun job => by
    by_cases h : job ∈ pre
    · obtain ⟨q, hq⟩ := h2 job h; exact ⟨q, fun _ => hq⟩
    · exact ⟨(0, 0), fun h' => absurd h' h⟩
  choose score hscore using h2'
  obtain ⟨c, e1, e2, -⟩ := C79_sweep (cols := ["dim", "Seed", "Iter", "RMSE", "NLL"]) (k := 3) (table := "L96_EXP")
    (by decide) (by decide) (pre := pre) (post := post) (rows := IeksSweep.l96Rows env jac rng stored N numIter)
    (val := fun job => [[.num job.1, .num job.2, .num numIter, .num (score job).1, .num (score job).2]])
    (fun j hj => (hscore j hj).2) (fun j _ r hr => by
      rw [List.mem_singleton.1 hr]
      exact ⟨rfl, by simp⟩) (res := res) (by
        rcases h3 with h | ⟨job, l, a, b, d, -⟩
        · exact .inl h
        · exact .inr ⟨job, l, _, a, d, b⟩) hfile
  refine ⟨pre, post, score, res, c, h1, fun job hj => (hscore job hj).1, ?_, by rw [IeksSweep.l96, h1]; exact e1, ?_⟩
  · rcases h3 with h | ⟨job, l, a, b, -, est, x, h4, h5⟩
    · exact .inl h
    · exact .inr ⟨job, l, est, x, a, b, h4, h5⟩
  · rw [e2]
    congr 2
    clear * -
    induction pre with
    | nil => rfl
    | cons a l ih => rw [List.flatMap_cons, ih]; rfl

/-! ## Coordinated turns -/

/-- The three rows of a seed. -/
def turnRows (seed : ℤ) (numIter : ℕ) (c : Metrics.Components) : List Row :=
  [[.text "position", .num seed, .num numIter, .num c.posRmse, .num c.posNll],
    [.text "velocity", .num seed, .num numIter, .num c.velRmse, .num c.velNll],
    [.text "angle", .num seed, .num numIter, .num c.angRmse, .num c.angNll]]

/-- What the script computes for a seed. -/
noncomputable def turnScores (env : Env) (jac : Jac) (rng : Rng) (N numIter : ℕ) : Py Metrics.Components := do
  let sys ← BOTT.init 0.1 0.000175 (Real.sqrt 10 * 0.001) (some BOTT.defaultSensors) 1
  ieksScores env jac rng 5 BOTT.defaultSensors.length sys N numIter (Metrics.componentwiseMetrics env)

/-- **C79.** The sweep over coordinated turns stores three rows for every seed before the first one that fails, whose error it raises;
the file never holds one or two of them only. -/
theorem C79_turn (rng : ℤ → Rng) (N numIter : ℕ) (seeds : List ℤ) {file : Tables} {old : List Row}
    (hfile : Stores ["Quantity", "Seed", "Iter", "RMSE", "NLL"] 3 "BOTT_EXP" file old) :
    ∃ (pre post : List ℤ) (comp : ℤ → Metrics.Components) (res : Py Unit) (c : Conn), seeds = pre ++ post ∧
      (∀ seed ∈ pre, turnScores env jac (rng seed) N numIter = .ok (comp seed)) ∧
      (post = [] ∧ res = .ok () ∨ ∃ seed l e, post = seed :: l ∧ turnScores env jac (rng seed) N numIter = .error e ∧ res = .error e) ∧
      IeksSweep.bott env jac rng N numIter seeds (Conn.connect file) = (res, c) ∧
      c.saved = withRows ["Quantity", "Seed", "Iter", "RMSE", "NLL"] 3 "BOTT_EXP" file
        (addRows 3 old (pre.flatMap fun seed => turnRows seed numIter (comp seed))) ∧
      ∀ f ∈ c.history, f = file ∨ ∃ i ≤ pre.length, f = withRows ["Quantity", "Seed", "Iter", "RMSE", "NLL"] 3 "BOTT_EXP" file
        (addRows 3 old ((pre.take i).flatMap fun seed => turnRows seed numIter (comp seed))) := by
  have hrow : ∀ seed, IeksSweep.bottRows env jac rng N numIter seed = (turnScores env jac (rng seed) N numIter).map (turnRows seed numIter) :=
    fun seed => by
      unfold IeksSweep.bottRows turnScores
      cases BOTT.init 0.1 0.000175 (Real.sqrt 10 * 0.001) (some BOTT.defaultSensors) 1 with
      | error e => rfl
      | ok sys =>
        simp only [ok_bind]
        cases ieksScores env jac (rng seed) 5 BOTT.defaultSensors.length sys N numIter (Metrics.componentwiseMetrics env) <;> rfl
  have split : ∀ seeds : List ℤ, ∃ (pre post : List ℤ) (res : Py Unit), seeds = pre ++ post ∧
      (∀ seed ∈ pre, ∃ c, turnScores env jac (rng seed) N numIter = .ok c) ∧
      (post = [] ∧ res = .ok () ∨ ∃ seed l e, post = seed :: l ∧ turnScores env jac (rng seed) N numIter = .error e ∧ res = .error e) := by
    intro seeds
    induction seeds with
    | nil => exact ⟨[], [], .ok (), rfl, by simp, .inl ⟨rfl, rfl⟩⟩
    | cons s seeds ih =>
      cases h : turnScores env jac (rng s) N numIter with
      | error e => exact ⟨[], s :: seeds, .error e, rfl, by simp, .inr ⟨s, seeds, e, rfl, h, rfl⟩⟩
      | ok c =>
        obtain ⟨pre, post, res, h1, h2, h3⟩ := ih
        refine ⟨s :: pre, post, res, by rw [h1]; rfl, fun seed hs => ?_, h3⟩
        rcases List.mem_cons.1 hs with rfl | hs
        · exact ⟨c, h⟩
        · exact h2 seed hs
  obtain ⟨pre, post, res, h1, h2, h3⟩ := split seeds
  have h2' : ∀ seed, ∃ c, seed ∈ pre → turnScores env jac (rng seed) N numIter = .ok c := fun seed => by
    by_cases h : seed ∈ pre
    · obtain ⟨c, hc⟩ := h2 seed h; exact ⟨c, fun _ => hc⟩
    · exact ⟨⟨0, 0, 0, 0, 0, 0⟩, fun h' => absurd h' h⟩
  choose comp hcomp using h2'
  obtain ⟨c, e1, e2, e3, -⟩ := C79_sweep (cols := ["Quantity", "Seed", "Iter", "RMSE", "NLL"]) (k := 3) (table := "BOTT_EXP") (by decide)
    (by decide) (pre := pre) (post := post) (rows := IeksSweep.bottRows env jac rng N numIter)
    (val := fun seed => turnRows seed numIter (comp seed)) (fun s hs => by rw [hrow, hcomp s hs]; rfl) (fun s _ r hr => by
      simp only [turnRows, List.mem_cons, List.not_mem_nil, or_false] at hr
      rcases hr with rfl | rfl | rfl <;> exact ⟨rfl, by simp⟩) (res := res) (by
        rcases h3 with h | ⟨s, l, e, a, b, d⟩
        · exact .inl h
        · exact .inr ⟨s, l, e, a, by rw [hrow, b]; rfl, d⟩) hfile
  refine ⟨pre, post, comp, res, c, h1, hcomp, h3, ?_, e2, e3⟩
  rw [h1]
  exact e1

/-- The seeds of the script on an empty file: one row per seed, all of the given number of iterations. -/
example (rng : ℤ → Rng) : ∃ c rows, IeksSweep.ungm calmEnv exactJac rng 100 50 [101, 201, 301] (Conn.connect fun _ => none) = (.ok (), c) ∧
    c.saved "UNGM_EXP" = some (keyedTable ["Seed", "Iter", "RMSE", "NLL"] 2 rows) ∧
    rows.map (List.take 2) = [[.num 101, .num 50], [.num 201, .num 50], [.num 301, .num 50]] := by
  obtain ⟨est, -, c, h1, h2, -⟩ := C79_growth (env := calmEnv) exactJac_correct rng (N := 100) (by norm_num) 50 [101, 201, 301]
    (file := fun _ => none) (old := []) (.inr ⟨rfl, rfl⟩)
  refine ⟨c, _, h1, by rw [h2, withRows, Function.update_self], ?_⟩
  simp [addRows, addRow, smootherRow]

/-- The dimensions of the script on a new checkout, which has no stored initial conditions. -/
example (jac : Jac) (rng : ℤ → Rng) : ∃ c, IeksSweep.l96 calmEnv jac rng (fun _ => none) 50 10 [5, 10, 20] [101, 201]
      (Conn.connect fun _ => none) = (.error .assertion, c) ∧
    c.saved "L96_EXP" = some (keyedTable ["dim", "Seed", "Iter", "RMSE", "NLL"] 3 []) := by
  obtain ⟨c, h1, h2⟩ := C79_lorenz_fresh (env := calmEnv) (jac := jac) rng (stored := fun _ => none) (dim := 5) (by norm_num) (.inl rfl) 50 10
    [10, 20] 101 [201] (file := fun _ => none) (old := []) (.inr ⟨rfl, rfl⟩)
  exact ⟨c, h1, by rw [h2, withRows, Function.update_self]⟩

/-- **C79.** What the scripts compare the estimates with: the squeezed states when there are two or more of one shape; but the components
of the state when there is a single vector, and the rows when there is a single matrix. -/
theorem C79_items :
    (∀ l : List Arr, 2 ≤ l.length → (∀ a ∈ l, ∀ b ∈ l, a.shape = b.shape) → stackItems l = .ok (l.map Arr.squeeze)) ∧
    (∀ (n : ℕ) (x : Fin n → ℝ), n ≠ 1 → stackItems [.v x] = .ok (List.ofFn fun i => .s (x i))) ∧
    (∀ (n : ℕ) (x : Fin n → ℝ), n ≠ 1 → stackItems [.m (r := 1) (Matrix.of fun _ j => x j)] = .ok (List.ofFn fun i => .s (x i))) ∧
    (∀ x : Fin 1 → ℝ, stackItems [.v x] = .error .type) ∧
    ∀ (r c : ℕ) (M : Matrix (Fin r) (Fin c) ℝ), r ≠ 1 → c ≠ 1 → stackItems [.m M] = .ok (List.ofFn fun i => .v (M i)) :=
  ⟨fun _ h2 h => stackItems_two h2 h, fun n x hn => by simp [stackItems, Arr.squeeze_v x hn],
    fun n x hn => by simp [stackItems, Arr.squeeze_row x hn], fun x => by simp [stackItems],
    fun r c M hr hc => by simp [stackItems, Arr.squeeze, hr, hc]⟩

example : stackItems [.v ![1, 2, 3]] = .ok [.s 1, .s 2, .s 3] := by
  simpa using C79_items.2.1 3 ![1, 2, 3] (by norm_num)

end Verif
