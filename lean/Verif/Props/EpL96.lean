import Verif.Lemmas.Journal
import Verif.Lemmas.Blind

/-!
# The sweep of expectation propagation over the Lorenz 96 system (C80)
-/

namespace Verif

open Matrix Gaussian Node

namespace EpL96

/-! ## What a run can store -/

/-- The first six cells of a row: transform, seed, dimension, number of the iteration (from zero), power, damping. -/
def rowKey (dim : ℕ) (seed : ℤ) (power damping : ℝ) (iter : ℕ) : Row :=
  [.text "MCT", .num seed, .num dim, .num iter, .num power, .num damping]

/-- The keys of a complete run in order. -/
def runKeys (dims : List ℕ) (seeds : List ℤ) (settings : List (ℝ × ℝ × ℕ)) : List Row :=
  (dims ×ˢ seeds).flatMap fun j => settings.flatMap fun s => (List.range s.2.2).map fun i => rowKey j.1 j.2 s.1 s.2.1 i

theorem rowFor (dim : ℕ) (seed : ℤ) (power damping : ℝ) (iter : ℕ) (r l : ℝ) :
    RowFor cols 6 [.text "MCT", .num seed, .num dim, .num iter, .num power, .num damping, .num r, .num l] :=
  ⟨rfl, by simp⟩

theorem onConn_logs {x : PyM Conn Unit} {keys : List Row} (h : Logs id cols 6 "L96_EXP" x keys) :
    Logs World.conn cols 6 "L96_EXP" (World.onConn x) keys := fun s rows h1 h2 => h s.conn rows h1 h2

theorem onConn_bind (x : PyM Conn Unit) (y : PyM Conn Unit) (z : PyM World Unit) :
    (do World.onConn x; World.onConn y; z) = (do World.onConn (do x; y); z : PyM World Unit) := by
  funext w
  rcases hx : x w.conn with ⟨e | u, c⟩
  · rw [PyM.bind_error (s' := ⟨w.heap, c⟩) (e := e) (by simp [World.onConn, hx]),
      PyM.bind_error (s' := ⟨w.heap, c⟩) (e := e) (by simp [World.onConn, PyM.bind_error hx])]
  · rw [PyM.bind_ok (s' := ⟨w.heap, c⟩) (a := ()) (by simp [World.onConn, hx])]
    rcases hy : y c with ⟨e | u, c'⟩
    · rw [PyM.bind_error (s' := ⟨w.heap, c'⟩) (e := e) (by simp [World.onConn, hy]),
        PyM.bind_error (s' := ⟨w.heap, c'⟩) (e := e) (by simp [World.onConn, PyM.bind_ok hx, hy])]
    · rw [PyM.bind_ok (s' := ⟨w.heap, c'⟩) (a := ()) (by simp [World.onConn, hy]),
        PyM.bind_ok (s' := ⟨w.heap, c'⟩) (a := ()) (by simp [World.onConn, PyM.bind_ok hx, hy])]

theorem passLoop_logs (env : Env) (dim : ℕ) (seed : ℤ) (power damping : ℝ) (nodes : List Ref) (xs : List Arr) :
    ∀ n iter : ℕ, Logs World.conn cols 6 "L96_EXP" (passLoop env dim seed power damping nodes xs n iter)
      ((List.range' iter n).map (rowKey dim seed power damping)) := by
  intro n
  induction n with
  | zero => exact fun iter => Logs.still fun _ => rfl
  | succ n ih =>
    intro iter
    unfold passLoop
    refine Logs.congr (Logs.bind (Logs.still fun _ => rfl) fun _ => Logs.bind (Logs.still fun _ => rfl) fun w =>
      Logs.bind (Logs.still fun _ => rfl) fun _ => Logs.bind (Logs.still fun _ => rfl) (fun rl => ?_) :
        Logs World.conn cols 6 "L96_EXP" _ ([] ++ ([] ++ ([] ++ ([] ++ ([rowKey dim seed power damping iter] ++
          (List.range' (iter + 1) n).map (rowKey dim seed power damping)))))))
      (by simp [List.range'_succ])
    dsimp only
    rw [onConn_bind]
    exact Logs.bind (onConn_logs (insertStrict_logs (by decide) (by decide) (rowFor _ _ _ _ _ _ _))) fun _ => ih (iter + 1)

theorem setting_logs (env : Env) (jac : Jac) (draw : Draw) (sys : Sys) (N dim : ℕ) (seed : ℤ) (xs ys : List Arr) (power damping : ℝ)
    (m : ℕ) : Logs id cols 6 "L96_EXP" (setting env jac draw sys N dim seed xs ys power damping m)
      ((List.range m).map (rowKey dim seed power damping)) := by
  intro c rows h1 h2
  unfold setting
  refine (Logs.bind (Logs.still fun _ => rfl) fun nodes =>
    (passLoop_logs env dim seed power damping nodes xs m 0).congr (by rw [← List.range_eq_range'])) ⟨_, c⟩ rows h1 h2

theorem job_logs (u : Setup) (settings : List (ℝ × ℝ × ℕ)) (j : ℕ × ℤ) : Logs id cols 6 "L96_EXP" (job u settings j)
    (settings.flatMap fun s => (List.range s.2.2).map fun i => rowKey j.1 j.2 s.1 s.2.1 i) := by
  unfold job
  refine Logs.bind (keys := []) (Logs.still fun _ => rfl) fun sys => Logs.bind (keys := []) (Logs.still fun _ => rfl) fun data => ?_
  split
  · intro s rows h1 h2
    obtain ⟨new, a1, a2, a3, a4, -, a6⟩ := (Logs.still (x := (PyM.raise .value : PyM Conn Unit)) fun _ => rfl : Logs id cols 6 "L96_EXP" _ [])
      s rows h1 h2
    exact ⟨new, a1, a2, a3, a4.trans List.nil_prefix, fun _ h => by simp [PyM.raise] at h, a6⟩
  · exact Logs.forEach fun s => setting_logs _ _ _ _ _ _ _ _ _ _ _ _

theorem main_start {file : Tables} {old : List Row} (hfile : Stores cols 6 "L96_EXP" file old) :
    ∃ c0 : Conn, (∀ (u : Setup) (dims : List ℕ) (seeds : List ℤ) (settings : List (ℝ × ℝ × ℕ)),
        main u dims seeds settings (Conn.connect file) = PyM.forEach (dims ×ˢ seeds) (job u settings) c0) ∧
      c0.work = withRows cols 6 "L96_EXP" file old ∧ c0.saved = c0.work ∧ c0.history = [file, c0.work, c0.work] := by
  have hcreate : ∃ c0 : Conn, (do Db.createTable "L96_EXP" cols (cols.take 6); Db.commit : PyM Conn Unit) (Conn.connect file) = (.ok (), c0) ∧
      c0.work = withRows cols 6 "L96_EXP" file old ∧ c0.saved = c0.work ∧ c0.history = [file, c0.work, c0.work] := by
    refine ⟨_, rfl, ?_, rfl, ?_⟩
    · rcases hfile with h | ⟨h, rfl⟩
      · rw [withRows_self h]
        simp [Conn.connect, Conn.record, h]
      · simp [Conn.connect, Conn.record, h, withRows, keyedTable]
    · simp [Conn.connect, Conn.record]
  obtain ⟨c0, h0, h⟩ := hcreate
  refine ⟨c0, fun u dims seeds settings => ?_, h⟩
  have h1 : ∀ (x y z : PyM Conn Unit) (s s' : Conn), (do x; y : PyM Conn Unit) s = (.ok (), s') → (do x; y; z : PyM Conn Unit) s = z s' := by
    intro x y z s s' h
    rcases hx : x s with ⟨e | v, t⟩
    · rw [PyM.bind_error hx] at h; simp at h
    · rw [PyM.bind_ok hx] at h ⊢; rw [PyM.bind_ok h]
  exact h1 _ _ _ _ _ h0

/-- **C80.** A run adds rows to the table whose keys are first ones of `runKeys`, all of them if it returns; no key is repeated.  Other
tables are as before, and at any moment the file holds what it held at the start or the old rows and first ones of the new rows. -/
theorem C80_run (u : Setup) (dims : List ℕ) (seeds : List ℤ) (settings : List (ℝ × ℝ × ℕ)) {file : Tables} {old : List Row}
    (hfile : Stores cols 6 "L96_EXP" file old) :
    ∃ (res : Py Unit) (c : Conn) (new : List Row), main u dims seeds settings (Conn.connect file) = (res, c) ∧
      c.saved = withRows cols 6 "L96_EXP" file (old ++ new) ∧ new.map (List.take 6) <+: runKeys dims seeds settings ∧
      (res = .ok () → new.map (List.take 6) = runKeys dims seeds settings) ∧
      (∀ r ∈ new, ∀ q ∈ old, q.take 6 ≠ r.take 6) ∧ Keyed 6 new ∧
      ∀ f ∈ c.history, f = file ∨ ∃ i ≤ new.length, f = withRows cols 6 "L96_EXP" file (old ++ new.take i) := by
  obtain ⟨c0, hrun, hw, hs, hh⟩ := main_start hfile
  obtain ⟨new, a1, a2, ⟨a3, a3'⟩, a4, a5, stages, a6, a7⟩ := (Logs.forEach (job_logs u settings) : Logs id cols 6 "L96_EXP"
    (PyM.forEach (dims ×ˢ seeds) (job u settings)) _) c0 old (by rw [id, hw, withRows, Function.update_self]) hs
  have hw' : ∀ rs, withRows cols 6 "L96_EXP" c0.work rs = withRows cols 6 "L96_EXP" file rs := fun rs => by
    rw [hw, withRows, withRows, withRows, Function.update_idem]
  rw [hrun]
  generalize PyM.forEach (dims ×ˢ seeds) (job u settings) c0 = out at *
  simp only [id] at *
  refine ⟨out.1, out.2, new, rfl, by rw [a2, a1, hw'], a4, a5 (), a3, a3', fun f hf => ?_⟩
  rw [a6, hh] at hf
  simp only [List.mem_append, List.mem_cons, List.not_mem_nil, or_false] at hf
  rcases hf with (rfl | rfl | rfl) | hf
  · exact .inl rfl
  · exact .inr ⟨0, by simp, by simpa using hw⟩
  · exact .inr ⟨0, by simp, by simpa using hw⟩
  · obtain ⟨i, hi, rfl⟩ := a7 f hf
    exact .inr ⟨i, hi, hw' _⟩

/-- **C80.** Columns and constraint of the table: transform, seed, dimension, number of the iteration, power and damping in this order, which
together are unique, then the two scores. -/
theorem C80_columns (u : Setup) (dims : List ℕ) (seeds : List ℤ) (settings : List (ℝ × ℝ × ℕ)) {file : Tables} {old : List Row}
    (hfile : file "L96_EXP" = some ⟨["Transform", "Seed", "dim", "Iter", "Power", "Damping", "RMSE", "NLL"],
      ["Transform", "Seed", "dim", "Iter", "Power", "Damping"], old⟩ ∨ file "L96_EXP" = none ∧ old = []) :
    ∃ new : List Row, (main u dims seeds settings (Conn.connect file)).2.saved "L96_EXP" =
        some ⟨["Transform", "Seed", "dim", "Iter", "Power", "Damping", "RMSE", "NLL"],
          ["Transform", "Seed", "dim", "Iter", "Power", "Damping"], old ++ new⟩ ∧
      new.map (List.take 6) <+: (dims ×ˢ seeds).flatMap fun j => settings.flatMap fun s => (List.range s.2.2).map fun (i : ℕ) =>
        [.text "MCT", .num j.2, .num j.1, .num i, .num s.1, .num s.2.1] := by
  obtain ⟨res, c, new, h1, h2, h3, -⟩ := C80_run u dims seeds settings (file := file) (old := old) hfile
  refine ⟨new, ?_, h3⟩
  rw [h1, h2, withRows, Function.update_self]
  rfl

theorem runKeys_cons (dim : ℕ) (dims : List ℕ) (seed : ℤ) (seeds : List ℤ) (power damping : ℝ) (m : ℕ) (settings : List (ℝ × ℝ × ℕ)) :
    ∃ l, runKeys (dim :: dims) (seed :: seeds) ((power, damping, m + 1) :: settings) = rowKey dim seed power damping 0 :: l := by
  have e : (dim :: dims) ×ˢ (seed :: seeds) = (dim, seed) :: (seeds.map (Prod.mk dim) ++ dims ×ˢ (seed :: seeds)) := rfl
  unfold runKeys
  rw [e, List.flatMap_cons, List.flatMap_cons, List.range_succ_eq_map, List.map_cons, List.cons_append, List.cons_append]
  exact ⟨_, rfl⟩

/-- **C80.** A table with the first row of a run: no run gets past it, whatever is drawn and simulated. -/
theorem C80_rerun (u : Setup) (dim : ℕ) (dims : List ℕ) (seed : ℤ) (seeds : List ℤ) (power damping : ℝ) (m : ℕ)
    (settings : List (ℝ × ℝ × ℕ)) {file : Tables} {old : List Row} (hfile : file "L96_EXP" = some (keyedTable cols 6 old))
    (hrow : ∃ q ∈ old, q.take 6 = rowKey dim seed power damping 0) :
    ∃ e c, main u (dim :: dims) (seed :: seeds) ((power, damping, m + 1) :: settings) (Conn.connect file) = (.error e, c) ∧
      c.saved = file ∧ ∀ f ∈ c.history, f = file := by
  obtain ⟨res, c, new, h1, h2, h3, h4, h5, -, h7⟩ := C80_run u (dim :: dims) (seed :: seeds) ((power, damping, m + 1) :: settings)
    (.inl hfile)
  obtain ⟨l, hl⟩ := runKeys_cons dim dims seed seeds power damping m settings
  obtain ⟨q, hq, e⟩ := hrow
  obtain rfl : new = [] := by
    rcases new with _ | ⟨r, new⟩
    · rfl
    · rw [hl, List.map_cons, List.cons_prefix_cons] at h3
      exact absurd (e.trans h3.1.symm) (h5 r (by simp) q hq)
  have hf : withRows cols 6 "L96_EXP" file old = file := withRows_self hfile
  rw [List.append_nil, hf] at h2
  rcases res with err | ⟨⟩
  · refine ⟨err, c, h1, h2, fun f hf' => ?_⟩
    rcases h7 f hf' with h | ⟨i, -, h⟩
    · exact h
    · rw [h, List.take_nil, List.append_nil, hf]
  · have := h4 rfl
    rw [hl] at this
    simp at this

/-- **C80.** Once a run has stored anything, later runs with the same first dimension, seed, power and damping raise and store nothing:
an interrupted sweep cannot be continued. -/
theorem C80_restart (u u' : Setup) (dim : ℕ) (dims dims' : List ℕ) (seed : ℤ) (seeds seeds' : List ℤ) (power damping : ℝ) (m m' : ℕ)
    (settings settings' : List (ℝ × ℝ × ℕ)) {file : Tables} {old : List Row} (hfile : Stores cols 6 "L96_EXP" file old) :
    ∀ f ∈ (main u (dim :: dims) (seed :: seeds) ((power, damping, m + 1) :: settings) (Conn.connect file)).2.history,
      (f = file ∨ f = withRows cols 6 "L96_EXP" file old) ∨
      ∃ e c, main u' (dim :: dims') (seed :: seeds') ((power, damping, m' + 1) :: settings') (Conn.connect f) = (.error e, c) ∧
        c.saved = f ∧ ∀ f' ∈ c.history, f' = f := by
  intro f hf
  obtain ⟨res, c, new, h1, h2, h3, -, -, -, h7⟩ := C80_run u (dim :: dims) (seed :: seeds) ((power, damping, m + 1) :: settings) hfile
  rw [h1] at hf
  obtain ⟨l, hl⟩ := runKeys_cons dim dims seed seeds power damping m settings
  rcases h7 f hf with h | ⟨i, hi, rfl⟩
  · exact .inl (.inl h)
  · rcases new with _ | ⟨r, new⟩
    · left; right; simp
    · rcases i with _ | i
      · left; right; simp
      · right
        rw [hl, List.map_cons, List.cons_prefix_cons] at h3
        exact C80_rerun u' dim dims' seed seeds' power damping m' settings' (by rw [withRows, Function.update_self])
          ⟨r, by simp, h3.1⟩

/-- **C80.** Without a stored initial condition, or with the row that a previous failed attempt has stored, the script fails with
`AssertionError` before any row is stored. -/
theorem C80_fresh (u : Setup) {dim : ℕ} (hd : 2 ≤ dim)
    (hst : u.stored dim = none ∨ ∃ X : Matrix (Fin 1) (Fin dim) ℝ, u.stored dim = some (.m X)) (dims : List ℕ) (seed : ℤ)
    (seeds : List ℤ) (settings : List (ℝ × ℝ × ℕ)) {file : Tables} {old : List Row} (hfile : Stores cols 6 "L96_EXP" file old) :
    ∃ c, main u (dim :: dims) (seed :: seeds) settings (Conn.connect file) = (.error .assertion, c) ∧
      c.saved = withRows cols 6 "L96_EXP" file old := by
  have hinit : L96.init 0.1 1 0.05 dim 8 (u.stored dim) = .error .assertion := by
    rcases hst with h | ⟨X, h⟩
    · rw [h]; exact C54_constructor_fails _ _ _ _ _ hd
    · have h1 : (1 : ℕ) ≠ dim := by omega
      rw [h]
      simp only [L96.init, ok_bind, Arr.shape0_m, ne_eq, h1, not_false_eq_true, if_true]
      rfl
  have e : (dim :: dims) ×ˢ (seed :: seeds) = (dim, seed) :: (seeds.map (Prod.mk dim) ++ dims ×ˢ (seed :: seeds)) := rfl
  have hjob : ∀ c, PyM.forEach ((dim :: dims) ×ˢ (seed :: seeds)) (job u settings) c = (.error .assertion, c) := fun c => by
    rw [e]
    unfold PyM.forEach
    refine PyM.bind_error ?_ _
    unfold job
    exact PyM.bind_error (by simp only [hinit]; rfl) _
  obtain ⟨c0, hrun, hw, hs, -⟩ := main_start hfile
  exact ⟨c0, by rw [hrun, hjob], by rw [hs, hw]⟩

/-! ## The first iteration ignores the measurements -/

/-- The first iteration is complete before the second begins: what it leaves in the file and in the connection is what a setting with one
iteration leaves, and if it raises so does the setting. -/
theorem C80_first_iteration (env : Env) (jac : Jac) (draw : Draw) (sys : Sys) (N dim : ℕ) (seed : ℤ) (xs ys : List Arr) (power damping : ℝ)
    (m : ℕ) (conn : Conn) {rows : List Row} (hwork : conn.work "L96_EXP" = some (keyedTable cols 6 rows)) (hs : conn.saved = conn.work) :
    (∃ e c, setting env jac draw sys N dim seed xs ys power damping 1 conn = (.error e, c) ∧
      setting env jac draw sys N dim seed xs ys power damping (m + 1) conn = (.error e, c)) ∨
    ∃ c, setting env jac draw sys N dim seed xs ys power damping 1 conn = (.ok (), c) ∧
      c.history <+: (setting env jac draw sys N dim seed xs ys power damping (m + 1) conn).2.history := by
  unfold setting
  generalize (do
      let (transform, measTransform) ← PyM.lift (selectTransform "MCT" dim 10000)
      let estim : Estimator :=
        { transMap := transform.call env jac draw
          measMap := measTransform.call env jac draw
          Q := some sys.Q
          R := some sys.R
          power := power
          damping := damping }
      let nodes ← buildNodes env N dim none none
      let nodes ← nodeEstimator env nodes estim
      nodeSystem nodes sys ys none : PyM Heap (List Ref)) = build
  dsimp only
  rcases hb : World.onHeap build ⟨⟨fun _ => Node.init 0 0, 0⟩, conn⟩ with ⟨e | nodes, w⟩
  · left; rw [PyM.bind_error hb, PyM.bind_error hb]; exact ⟨e, _, rfl, rfl⟩
  have hw : w.conn = conn := (congrArg (fun x => x.2.conn) hb).symm
  rw [PyM.bind_ok hb, PyM.bind_ok hb]
  have hstep : ∀ n, passLoop env dim seed power damping nodes xs (n + 1) 0 w =
      match passLoop env dim seed power damping nodes xs 1 0 w with
      | (.error e, w') => (.error e, w')
      | (.ok _, w') => passLoop env dim seed power damping nodes xs n 1 w' := by
    intro n
    have hz : passLoop env dim seed power damping nodes xs 0 (0 + 1) = pure () := rfl
    rw [passLoop, passLoop, hz]
    rcases h1 : World.onHeap (epFwdBack env nodes) w with ⟨e | _, w1⟩
    · rw [PyM.bind_error h1, PyM.bind_error h1]
    rw [PyM.bind_ok h1, PyM.bind_ok h1, PyM.get_bind, PyM.get_bind]
    rcases h2 : recordMoments env dim w1.heap nodes with e | _
    · rw [PyM.bind_error (s' := w1) (e := e) (by rfl), PyM.bind_error (s' := w1) (e := e) (by rfl)]
    rw [PyM.bind_ok (s' := w1) (a := ()) (by rfl), PyM.bind_ok (s' := w1) (a := ()) (by rfl)]
    rcases h3 : Metrics.nodeMetrics env w1.heap nodes xs with e | ⟨r, l⟩
    · rw [PyM.bind_error (s' := w1) (e := e) (by rfl), PyM.bind_error (s' := w1) (e := e) (by rfl)]
    rw [PyM.bind_ok (s' := w1) (a := (r, l)) (by rfl), PyM.bind_ok (s' := w1) (a := (r, l)) (by rfl)]
    dsimp only
    rcases h4 : World.onConn (Db.insertStrict "L96_EXP" cols
      [.text "MCT", .num seed, .num dim, .num (0 : ℕ), .num power, .num damping, .num r, .num l]) w1 with ⟨e | _, w2⟩
    · rw [PyM.bind_error h4, PyM.bind_error h4]
    rw [PyM.bind_ok h4, PyM.bind_ok h4]
    rcases h5 : World.onConn Db.commit w2 with ⟨e | _, w3⟩
    · rw [PyM.bind_error h5, PyM.bind_error h5]
    rw [PyM.bind_ok h5, PyM.bind_ok h5, Nat.zero_add]
    rfl
  rw [hstep m]
  obtain ⟨new, a1, a2, -⟩ := passLoop_logs env dim seed power damping nodes xs 1 0 w rows (by rw [hw, hwork]) (by rw [hw, hs])
  rcases h1 : passLoop env dim seed power damping nodes xs 1 0 w with ⟨e | _, w'⟩
  · exact .inl ⟨e, _, rfl, rfl⟩
  · rw [h1] at a1 a2
    dsimp only at a1 a2
    right
    obtain ⟨-, -, -, -, -, -, stages, b6, -⟩ := passLoop_logs env dim seed power damping nodes xs m 1 w' (rows ++ new)
      (by rw [a1, withRows, Function.update_self]) a2
    exact ⟨w'.conn, rfl, b6 ▸ List.prefix_append _ _⟩

theorem recordMoments_raises {env : Env} {n : ℕ} (hn : 2 ≤ n) {h : Heap} {nodes : List Ref} {q : Ref} (hq : q ∈ nodes)
    (hm : ∃ M : Matrix (Fin n) (Fin n) ℝ, (h.get q).marginal.meanA env = .ok (.m M)) : ∃ e, recordMoments env n h nodes = .error e := by
  unfold recordMoments
  induction nodes with
  | nil => simp at hq
  | cons r nodes ih =>
    rw [List.forM]
    rcases List.mem_cons.1 hq with rfl | hq
    · obtain ⟨M, hM⟩ := hm
      refine ⟨.value, ?_⟩
      rw [hM, ok_bind, assignSlot, if_neg (by omega)]
      rfl
    · obtain ⟨e, he⟩ := ih hq
      generalize (do
        assignSlot n (← (h.get r).marginal.meanA env)
        assignSlot n (← npDiag (← (h.get r).marginal.covA env)) : Py Unit) = x
      rcases x with e' | _
      · exact ⟨e', rfl⟩
      · exact ⟨e, he⟩

/-- **C80.** Let the state have dimension at least two.  For any two sequences of measurements the setting raises before it stores
anything, or the first iteration stores the same row: the scores do not depend on the measurements. -/
theorem C80_blind {env : Env} {n k : ℕ} (jac : Jac) (draw : Draw) {sys : Sys} {N : ℕ} {ys ys' : List Arr} (hN : ys.length = N)
    (hN' : ys'.length = N) (hsys : Proper env n k sys ys) (hsys' : Proper env n k sys ys') (hn : 2 ≤ n)
    (hcalm : ∀ A : Matrix (Fin n) (Fin n) ℝ, env.illPos A = false)
    {F : ℝ → (Fin n → ℝ) → Fin n → ℝ} (hF : ∀ t, OnRows (fun x => sys.transition x (some t) (some 0)) (F t))
    {G : (Fin n → ℝ) → Fin k → ℝ} (hG : OnRows (fun x => sys.measurement x none none) G) {power damping : ℝ} (hp : 0 < power)
    (hγ : 0 ≤ damping) (seed : ℤ) (xs : List Arr) (conn : Conn) :
    (∀ m, ∃ e e', setting env jac draw sys N n seed xs ys power damping (m + 1) conn = (.error e, conn) ∧
      setting env jac draw sys N n seed xs ys' power damping (m + 1) conn = (.error e', conn)) ∨
    setting env jac draw sys N n seed xs ys power damping 1 conn = setting env jac draw sys N n seed xs ys' power damping 1 conn := by
  obtain ⟨hy2, hmeas, ⟨μ, P, hg, hP⟩, ⟨Q, hQ1, hQ2⟩, ⟨R, hR1, hR2⟩⟩ := hsys
  have hmeas' := hsys'.meas
  rw [hN] at hy2
  set e : Estimator := ⟨mcTransform env draw 10000, mcTransform env draw 10000, some sys.Q, some sys.R, power, damping⟩ with he
  have hbuild : ∀ zs, (do
      let (transform, measTransform) ← PyM.lift (selectTransform "MCT" n 10000)
      let estim : Estimator :=
        { transMap := transform.call env jac draw
          measMap := measTransform.call env jac draw
          Q := some sys.Q
          R := some sys.R
          power := power
          damping := damping }
      let nodes ← buildNodes env N n none none
      let nodes ← nodeEstimator env nodes estim
      nodeSystem nodes sys zs none : PyM Heap (List Ref)) = graph env N n e sys zs := by
    intro zs
    funext h
    rw [PyM.lift_bind_eq ((C59_total "MCT" n 10000).2.1 (by unfold SameLetters; decide))]
    rfl
  obtain ⟨h1, f, g1, g2, g3, g4⟩ := graph_twice (env := env) N n hy2 e sys (ys := ys) (ys' := ys')
    (by rintro rfl; rw [List.length_nil] at hN; omega) (hN'.trans hN.symm) ⟨fun _ => Node.init 0 0, 0⟩
  dsimp only at g1 g2 g3 g4
  have hnodes : (List.range' 0 N).take ys.length = List.range' 0 N := by
    rw [List.take_of_length_le (by simp [hN])]
  rw [hnodes] at g1 g2
  have hs1 : ∀ m, setting env jac draw sys N n seed xs ys power damping m conn =
      ((passLoop env n seed power damping (List.range' 0 N) xs m 0 ⟨h1, conn⟩).1,
        (passLoop env n seed power damping (List.range' 0 N) xs m 0 ⟨h1, conn⟩).2.conn) := fun m => by
    unfold setting
    rw [hbuild]
    dsimp only
    rw [PyM.bind_ok (s' := ⟨h1, conn⟩) (a := List.range' 0 N) (by rw [onHeap_run, g1])]
  have hs2 : ∀ m, setting env jac draw sys N n seed xs ys' power damping m conn =
      ((passLoop env n seed power damping (List.range' 0 N) xs m 0 ⟨remeas f h1, conn⟩).1,
        (passLoop env n seed power damping (List.range' 0 N) xs m 0 ⟨remeas f h1, conn⟩).2.conn) := fun m => by
    unfold setting
    rw [hbuild]
    dsimp only
    rw [PyM.bind_ok (s' := ⟨remeas f h1, conn⟩) (a := List.range' 0 N) (by rw [onHeap_run, g2])]
  obtain ⟨h', h'', hcases⟩ := filter_twice (env := env) (e := e) (sys := sys) (s := 0) (N := N) hcalm (by omega) hp hγ hg hP
    (by rw [he, hQ1]) hQ2 (by rw [he, hR1]) hR2 (fun t => mc_samples draw (by norm_num) (by omega) (hF t))
    (mc_samples draw (by norm_num) (by omega) hG) (fun t => C41_monte_carlo draw 10000 _) f N 0 h1 (by omega)
    (fun j _ hj => by
      rw [Nat.zero_add] at hj
      obtain ⟨yv, hy⟩ := hmeas ys[j] (List.getElem_mem _)
      exact ⟨ys[j], yv, hy, g3 j _ hj (List.getElem?_eq_getElem (by omega))⟩)
    (fun j _ hj => by
      rw [Nat.zero_add] at hj
      obtain ⟨yv, hy⟩ := hmeas' ys'[j] (List.getElem_mem _)
      exact ⟨ys'[j].squeeze, yv, hy, g4 j _ hj (List.getElem?_eq_getElem (by omega))⟩) (.inl rfl)
  rw [Nat.add_zero] at hcases
  -- a failing pass
  have fail : ∀ (h : Heap) (e : Err) (h' : Heap) (m : ℕ), epFwdBack env (List.range' 0 N) h = (.error e, h') →
      ((passLoop env n seed power damping (List.range' 0 N) xs (m + 1) 0 ⟨h, conn⟩).1,
        (passLoop env n seed power damping (List.range' 0 N) xs (m + 1) 0 ⟨h, conn⟩).2.conn) = (.error e, conn) := by
    intro h e h' m hp
    unfold passLoop
    rw [PyM.bind_error (s' := ⟨h', conn⟩) (e := e) (by rw [onHeap_run, hp])]
  -- the last update accepted
  have last : ∀ (h h' : Heap), (∀ i : ℕ, i < N → ∃ y, h.get i = { builtNode env e sys 0 N n i y with meas := (h.get i).meas }) →
      PyM.forEach (List.range' 0 N) (fun r => do fwdCall env r; measCall env r) h = (.ok (), h') →
      MatrixShift n (h'.get (0 + (0 + N - 1))).marginal → ∀ m, ∃ e,
      ((passLoop env n seed power damping (List.range' 0 N) xs (m + 1) 0 ⟨h, conn⟩).1,
        (passLoop env n seed power damping (List.range' 0 N) xs (m + 1) 0 ⟨h, conn⟩).2.conn) = (.error e, conn) := by
    intro h h' hb hf ⟨P', W, hM, hP', ht'⟩ m
    have hst := filter_static (env := env) (List.range' 0 N)
    have hback : ((PyM.forEach (List.range' 0 N).reverse (backCall env) h').2.get (0 + (0 + N - 1))).marginal = (h'.get (0 + (0 + N - 1))).marginal := by
      refine backLoop_frame _ _ _ (fun r hr p hp' => ?_) ?_
      · have := (hst r h).1
        rw [hf] at this
        rw [this] at hp'
        rw [List.mem_reverse, List.mem_range'_1] at hr
        obtain ⟨y, hy⟩ := hb r (by omega)
        rw [hy] at hp'
        dsimp only [builtNode] at hp'
        rw [Option.some.injEq] at hp'
        rw [← hp', Nat.zero_add]
      · have := (hst (0 + (0 + N - 1)) h).2
        rw [hf] at this
        dsimp only at this
        rw [this]
        obtain ⟨y, hy⟩ := hb (0 + (0 + N - 1)) (by omega)
        rw [hy]
        dsimp only [builtNode]
        rw [if_neg (by omega)]
    rcases hpass : epFwdBack env (List.range' 0 N) h with ⟨e | _, h2⟩
    · exact ⟨e, fail h e h2 m hpass⟩
    · have h2e : h2 = (PyM.forEach (List.range' 0 N).reverse (backCall env) h').2 := by
        unfold epFwdBack at hpass
        rw [PyM.bind_ok hf] at hpass
        rw [hpass]
      have hmean : ∃ M : Matrix (Fin n) (Fin n) ℝ, (h2.get (0 + (0 + N - 1))).marginal.meanA env = .ok (.m M) := by
        rw [h2e, hback, hM]
        have hcov : (ofNatural (.m P') (.m W)).cov env = .ok (some (.m P'⁻¹)) := by
          rw [cov_ofNatural]
          simp only [naturalToMoment, need_some, ok_bind, Arr.shape0_m, Arr.trace_m, if_neg (not_lt.2 ht'), Arr.atleast1d_m,
            spSolvePos_eye hP' (hcalm _), tryBare_ok, symmetrize_symm (posDef_symm hP'.inv), Arr.dot_mm, py_pure]
          rfl
        obtain ⟨C, -, hm⟩ := mean_matrix_shift ht' hcov
        exact ⟨C * W, by simp only [meanA, hm, need_some, ok_bind, Arr.atleast1d_m, py_pure]⟩
      obtain ⟨er, her⟩ := recordMoments_raises (env := env) hn (h := h2) (nodes := List.range' 0 N) (q := 0 + (0 + N - 1))
        (by rw [List.mem_range'_1]; omega) hmean
      refine ⟨er, ?_⟩
      unfold passLoop
      rw [PyM.bind_ok (s' := ⟨h2, conn⟩) (a := ()) (by rw [onHeap_run, hpass]), PyM.get_bind,
        PyM.bind_error (s' := ⟨h2, conn⟩) (e := er) (by simp only [her]; rfl)]
  have hb1 : ∀ i : ℕ, i < N → ∃ y, h1.get i = builtNode env e sys 0 N n i y := fun i hi => by
    have := g3 i ys[i] hi (List.getElem?_eq_getElem (by omega))
    rw [Nat.zero_add] at this
    exact ⟨_, this⟩
  rcases hcases with ⟨c1, c2⟩ | ⟨c1, c2, c3, c4⟩ | ⟨c1, c2, -⟩
  · left
    intro m
    refine ⟨.value, .value, (hs1 _).trans (fail _ _ h' m ?_), (hs2 _).trans (fail _ _ h'' m ?_)⟩
    · unfold epFwdBack; exact PyM.bind_error c1 _
    · unfold epFwdBack; exact PyM.bind_error c2 _
  · left
    intro m
    obtain ⟨e1, k1⟩ := last h1 h' (fun i hi => by obtain ⟨y, hy⟩ := hb1 i hi; exact ⟨y, by rw [hy]⟩) c1 c3 m
    obtain ⟨e2, k2⟩ := last (remeas f h1) h'' (fun i hi => by
      obtain ⟨y, hy⟩ := hb1 i hi; exact ⟨y, by rw [remeas_get, hy]⟩) c2 c4 m
    exact ⟨e1, e2, (hs1 _).trans k1, (hs2 _).trans k2⟩
  · right
    have hpass : epFwdBack env (List.range' 0 N) (remeas f h1) =
        ((epFwdBack env (List.range' 0 N) h1).1, remeas f (epFwdBack env (List.range' 0 N) h1).2) := by
      unfold epFwdBack
      rw [PyM.bind_ok c1, PyM.bind_ok c2]
      exact forEach_remeas f (fun r h => backCall_remeas f r h) _ _
    rw [hs1, hs2]
    rcases h2 : epFwdBack env (List.range' 0 N) h1 with ⟨er | _, h3⟩
    · rw [fail _ _ _ 0 h2, fail _ er (remeas f h3) 0 (by rw [hpass, h2])]
    · rw [h2] at hpass
      unfold passLoop
      rw [PyM.bind_ok (s' := ⟨h3, conn⟩) (a := ()) (by rw [onHeap_run, h2]),
        PyM.bind_ok (s' := ⟨remeas f h3, conn⟩) (a := ()) (by rw [onHeap_run, hpass]), PyM.get_bind, PyM.get_bind]
      have e1 : recordMoments env n (remeas f h3) (List.range' 0 N) = recordMoments env n h3 (List.range' 0 N) := rfl
      have e2 : Metrics.nodeMetrics env (remeas f h3) (List.range' 0 N) xs = Metrics.nodeMetrics env h3 (List.range' 0 N) xs := rfl
      dsimp only
      rw [e1, e2]
      rcases recordMoments env n h3 (List.range' 0 N) with er | _
      · rfl
      rcases Metrics.nodeMetrics env h3 (List.range' 0 N) xs with er | ⟨r, l⟩
      · rfl
      simp only [PyM.lift_ok_bind]
      set ins := Db.insertStrict "L96_EXP" cols
        [.text "MCT", .num seed, .num n, .num (0 : ℕ), .num power, .num damping, .num r, .num l]
      have hi : ∀ h, World.onConn ins ⟨h, conn⟩ = ((ins conn).1, ⟨h, (ins conn).2⟩) := fun _ => rfl
      rcases hc : ins conn with ⟨er | _, c'⟩
      · rw [hc] at hi
        rw [PyM.bind_error (hi h3), PyM.bind_error (hi (remeas f h3))]
      · rw [hc] at hi
        rw [PyM.bind_ok (hi h3), PyM.bind_ok (hi (remeas f h3))]
        rfl

/-- **C80.** The Lorenz 96 system of the script, once a vector is stored as its initial condition. -/
theorem C80_lorenz {env : Env} {dim : ℕ} (hd : 2 ≤ dim) (hcalm : ∀ A : Matrix (Fin dim) (Fin dim) ℝ, env.illPos A = false)
    (x : Fin dim → ℝ) {sys : Sys} (hsys : L96.init 0.1 1 0.05 dim 8 (some (.v x)) = .ok sys) (jac : Jac) (draw : Draw) {N : ℕ} (hN : 2 ≤ N)
    {ys ys' : List Arr} (hl : ys.length = N) (hl' : ys'.length = N) (hys : ∀ y ∈ ys, ∃ v : Fin dim → ℝ, IsPoint y v)
    (hys' : ∀ y ∈ ys', ∃ v : Fin dim → ℝ, IsPoint y v) {power damping : ℝ} (hp : 0 < power) (hγ : 0 ≤ damping) (seed : ℤ)
    (xs : List Arr) (conn : Conn) :
    (∀ m, ∃ e e', setting env jac draw sys N dim seed xs ys power damping (m + 1) conn = (.error e, conn) ∧
      setting env jac draw sys N dim seed xs ys' power damping (m + 1) conn = (.error e', conn)) ∨
    setting env jac draw sys N dim seed xs ys power damping 1 conn =
      setting env jac draw sys N dim seed xs ys' power damping 1 conn := by
  obtain ⟨h1, ⟨Φ, hΦ⟩, ⟨G, hG⟩⟩ := l96_proper (env := env) (by norm_num) (by norm_num) x hsys (by rw [hl]; exact hN) hys
  obtain ⟨h2, -⟩ := l96_proper (env := env) (by norm_num) (by norm_num) x hsys (by rw [hl']; exact hN) hys'
  exact C80_blind jac draw hl hl' h1 h2 hd hcalm hΦ hG hp hγ seed xs conn

/-- The lists of the script, and a table with the first row of a run. -/
example (u : Setup) : ∃ e c, main u [5, 10, 20, 40, 100, 200] [101, 201, 301, 401, 501, 601, 701, 801, 901, 1001]
    [(1, 1, 10), (0.8, 1, 10), (0.1, 1, 10)] (Conn.connect (withRows cols 6 "L96_EXP" (fun _ => none)
      [[.text "MCT", .num (101 : ℤ), .num (5 : ℕ), .num (0 : ℕ), .num 1, .num 1, .num 2.5, .num 7]])) = (.error e, c) ∧
    c.saved = withRows cols 6 "L96_EXP" (fun _ => none)
      [[.text "MCT", .num (101 : ℤ), .num (5 : ℕ), .num (0 : ℕ), .num 1, .num 1, .num 2.5, .num 7]] := by
  obtain ⟨e, c, h1, h2, -⟩ := C80_rerun u 5 [10, 20, 40, 100, 200] 101 [201, 301, 401, 501, 601, 701, 801, 901, 1001] 1 1 9
    [(0.8, 1, 10), (0.1, 1, 10)] (file := withRows cols 6 "L96_EXP" (fun _ => none)
      [[.text "MCT", .num (101 : ℤ), .num (5 : ℕ), .num (0 : ℕ), .num 1, .num 1, .num 2.5, .num 7]])
    (by rw [withRows, Function.update_self]) ⟨_, List.mem_singleton_self _, rfl⟩
  exact ⟨e, c, h1, h2⟩

/-- An empty file and one job. -/
example (u : Setup) : ∃ new : List Row, (main u [5] [101] [(0.8, 1, 2)] (Conn.connect fun _ => none)).2.saved "L96_EXP" =
      some ⟨["Transform", "Seed", "dim", "Iter", "Power", "Damping", "RMSE", "NLL"],
        ["Transform", "Seed", "dim", "Iter", "Power", "Damping"], [] ++ new⟩ ∧
    new.map (List.take 6) <+: [[.text "MCT", .num (101 : ℤ), .num (5 : ℕ), .num (0 : ℕ), .num 0.8, .num 1],
      [.text "MCT", .num (101 : ℤ), .num (5 : ℕ), .num (1 : ℕ), .num 0.8, .num 1]] :=
  C80_columns u [5] [101] [(0.8, 1, 2)] (.inr ⟨rfl, rfl⟩)

/-- Three measurements of dimension two against three others. -/
example (draw : Draw) (jac : Jac) : ∃ sys, L96.init 0.1 1 0.05 2 8 (some (.v ![8, 8.01])) = .ok sys ∧
    ((∀ m, ∃ e e', setting calmEnv jac draw sys 3 2 101 [] [.v ![1, 2], .v ![0, 5], .v ![3, 1]] 0.8 1 (m + 1)
        (Conn.connect fun _ => none) = (.error e, Conn.connect fun _ => none) ∧
      setting calmEnv jac draw sys 3 2 101 [] [.v ![100, -2], .v ![7, 7], .v ![0, 0]] 0.8 1 (m + 1)
        (Conn.connect fun _ => none) = (.error e', Conn.connect fun _ => none)) ∨
    setting calmEnv jac draw sys 3 2 101 [] [.v ![1, 2], .v ![0, 5], .v ![3, 1]] 0.8 1 1 (Conn.connect fun _ => none) =
      setting calmEnv jac draw sys 3 2 101 [] [.v ![100, -2], .v ![7, 7], .v ![0, 0]] 0.8 1 1 (Conn.connect fun _ => none)) := by
  obtain ⟨sys, hsys⟩ : ∃ sys, L96.init 0.1 1 0.05 2 8 (some (.v ![8, 8.01])) = .ok sys := by
    simp only [L96.init, ok_bind, Arr.shape0_v, ne_eq, not_true_eq_false, if_false]
    exact ⟨_, rfl⟩
  refine ⟨sys, hsys, C80_lorenz (N := 3) (ys := [.v ![1, 2], .v ![0, 5], .v ![3, 1]]) (ys' := [.v ![100, -2], .v ![7, 7], .v ![0, 0]])
    le_rfl (fun _ => rfl) _ hsys jac draw (by norm_num) rfl rfl ?_ ?_ (by norm_num) zero_le_one 101 [] _⟩
  · intro y hy
    simp only [List.mem_cons, List.not_mem_nil, or_false] at hy
    rcases hy with rfl | rfl | rfl <;> exact ⟨_, .inl rfl⟩
  · intro y hy
    simp only [List.mem_cons, List.not_mem_nil, or_false] at hy
    rcases hy with rfl | rfl | rfl <;> exact ⟨_, .inl rfl⟩

end EpL96

end Verif
