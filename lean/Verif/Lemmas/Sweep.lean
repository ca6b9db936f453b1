import Verif.Model.Sweep
import Verif.Lemmas.Database

/-! `ep_iterations` and the sweep in terms of rows. -/

namespace Verif

/-! ## `ep_iterations` -/

/-- The rows `ep_iterations` offers, and how it ends, as a function of the nodes alone; `mk iter rmse nll` builds a row. -/
noncomputable def epRows (env : Env) (nodes : List Ref) (xs : List Arr) (mk : ℝ → ℝ → ℝ → Row) :
    ℕ → ℝ → Heap → List Row × Py Unit
  | 0, _, _ => ([], .ok ())
  | n + 1, it, h =>
    match (epFwdBack env nodes h).1 with
    | .error e => ([], .error e)
    | .ok () =>
      match Metrics.nodeMetrics env (epFwdBack env nodes h).2 nodes xs with
      | .error e => ([], .error e)
      | .ok (r, l) =>
        (mk (it + 1) r l :: (epRows env nodes xs mk n (it + 1) (epFwdBack env nodes h).2).1,
          (epRows env nodes xs mk n (it + 1) (epFwdBack env nodes h).2).2)

/-- The dict `exp_data` after `del exp_data['Nodes']`. -/
def dataDict (tr seed it power damping a b m v : Cell) : Db.Dict :=
  [("Transform", tr), ("Seed", seed), ("Iter", it), ("Power", power), ("Damping", damping), ("RMSE", a), ("NLL", b), ("Mean", m),
    ("Variance", v)]

theorem onConn_run {α : Type} (x : PyM Conn α) (w : World) :
    World.onConn x w = ((x w.conn).1, { w with conn := (x w.conn).2 }) := rfl

theorem onHeap_run {α : Type} (x : PyM Heap α) (w : World) :
    World.onHeap x w = ((x w.heap).1, { w with heap := (x w.heap).2 }) := rfl

theorem passes_succ (env : Env) (nodes : List Ref) (n : ℕ) (h : Heap) :
    passes env nodes (n + 1) h = passes env nodes n (epFwdBack env nodes h).2 := by
  induction n with
  | zero => rfl
  | succ n ih => rw [passes, ih, passes]

theorem epLoop_run (env : Env) (nodes : List Ref) (xs : List Arr) (name tr : String) (seed : ℤ) (power damping : ℝ) (n : ℕ) :
    ∀ (it : ℝ) (a b m v : Cell) (h : Heap) (c : Conn) (rows : List Row), c.work name = some (expTable rows) →
      ∃ h', epIterationsLoop env nodes (some xs) name n
          (dataDict (.text tr) (.num seed) (.num it) (.num power) (.num damping) a b m v) ⟨h, c⟩ =
        ((epRows env nodes xs (expRow tr seed power damping) n it h).2,
          ⟨h', commitRows name c rows (epRows env nodes xs (expRow tr seed power damping) n it h).1⟩) ∧
        ((epRows env nodes xs (expRow tr seed power damping) n it h).2 = .ok () → h' = passes env nodes n h) := by
  induction n with
  | zero => intro it a b m v h c rows _; exact ⟨h, rfl, fun _ => rfl⟩
  | succ n ih =>
    intro it a b m v h c rows hc
    unfold epIterationsLoop epRows
    cases hp : epFwdBack env nodes h with
    | mk res h1 =>
    cases res with
    | error e =>
      refine ⟨h1, ?_, fun h => by simp at h⟩
      exact PyM.bind_error (s' := (⟨h1, c⟩ : World)) (by rw [onHeap_run, hp]) _
    | ok _ =>
      rw [PyM.bind_ok (s' := (⟨h1, c⟩ : World)) (a := ()) (by rw [onHeap_run, hp])]
      have hd : Db.Dict.incr (dataDict (.text tr) (.num seed) (.num it) (.num power) (.num damping) a b m v) "Iter" =
          .ok (dataDict (.text tr) (.num seed) (.num (it + 1)) (.num power) (.num damping) a b m v) := by
        simp [Db.Dict.incr, dataDict, Db.Dict.item, Db.Dict.set, List.lookup]
      simp only [hd, PyM.lift_ok_bind, PyM.get_bind]
      cases hm : Metrics.nodeMetrics env h1 nodes xs with
      | error e => exact ⟨h1, PyM.bind_error (s' := (⟨h1, c⟩ : World)) rfl _, fun h => by simp at h⟩
      | ok rl =>
        obtain ⟨r, l⟩ := rl
        rw [PyM.lift_bind_eq (a := (r, l)) rfl]
        simp only
        have hrow : ExpShape (expRow tr seed power damping (it + 1) r l) := ⟨_, _, _, _, _, _, _, _, _, rfl, by simp⟩
        have hset : ∀ d : Db.Dict, d = dataDict (.text tr) (.num seed) (.num (it + 1)) (.num power) (.num damping) a b m v →
            ((((d.set "RMSE" (.num r)).set "NLL" (.num l)).set "Mean" (.pickle [])).set "Variance" (.pickle [])) =
              dataDict (.text tr) (.num seed) (.num (it + 1)) (.num power) (.num damping) (.num r) (.num l) (.pickle [])
                (.pickle []) := by
          rintro _ rfl; simp [dataDict, Db.Dict.set]
        simp only [hset _ rfl]
        have hins : Db.insertExperimentData name (dataDict (.text tr) (.num seed) (.num (it + 1)) (.num power) (.num damping)
            (.num r) (.num l) (.pickle []) (.pickle [])) c = _ := insert_run hc (exp_insert rows hrow)
        rw [PyM.bind_ok (s' := (⟨h1, c.put name (expTable (addRow 5 rows (expRow tr seed power damping (it + 1) r l)))⟩ : World)) (a := ())
          (by rw [onConn_run, hins]; rfl)]
        rw [PyM.bind_ok (a := ()) (by rw [onConn_run, commit_run])]
        obtain ⟨h', e, e'⟩ := ih (it + 1) (.num r) (.num l) (.pickle []) (.pickle []) h1
          ((c.put name (expTable (addRow 5 rows (expRow tr seed power damping (it + 1) r l)))).sync)
          (addRow 5 rows (expRow tr seed power damping (it + 1) r l)) (by rw [put_sync_work, Function.update_self])
        refine ⟨h', e, fun hok => ?_⟩
        rw [passes_succ, hp]
        exact e' hok

theorem epLoop_none (env : Env) (nodes : List Ref) (name : String) (n : ℕ) (data : Db.Dict) (w : World) :
    (epIterationsLoop env nodes none name n data w).2.conn = w.conn := by
  induction n generalizing w with
  | zero => rfl
  | succ n ih =>
    unfold epIterationsLoop
    rw [PyM.bind_run]
    split
    · next a s' hs => rw [ih]; rw [onHeap_run] at hs; rw [← (Prod.mk.inj hs).2]
    · next e s' hs => rw [onHeap_run] at hs; rw [← (Prod.mk.inj hs).2]

theorem epRows_length (env : Env) (nodes : List Ref) (xs : List Arr) (mk : ℝ → ℝ → ℝ → Row) (n : ℕ) (it : ℝ) (h : Heap) :
    (epRows env nodes xs mk n it h).1.length ≤ n ∧
      ((epRows env nodes xs mk n it h).1.length = n ↔ (epRows env nodes xs mk n it h).2 = .ok ()) := by
  induction n generalizing it h with
  | zero => simp [epRows]
  | succ n ih =>
    unfold epRows
    split
    · simp
    · split
      · simp
      · next r l _ => simpa using ih (it + 1) _

theorem epRows_get (env : Env) (nodes : List Ref) (xs : List Arr) (mk : ℝ → ℝ → ℝ → Row) (n : ℕ) (it : ℝ) (h : Heap) (i : ℕ)
    (row : Row) (hi : (epRows env nodes xs mk n it h).1[i]? = some row) : ∃ r l, row = mk (it + (i + 1)) r l := by
  induction n generalizing it h i with
  | zero => simp [epRows] at hi
  | succ n ih =>
    unfold epRows at hi
    split at hi
    · simp at hi
    · split at hi
      · simp at hi
      · next r l _ =>
        cases i with
        | zero => exact ⟨r, l, by simpa using hi.symm⟩
        | succ i =>
          obtain ⟨r', l', e⟩ := ih (it + 1) _ i (by simpa using hi)
          refine ⟨r', l', ?_⟩
          rw [e]; congr 1; push_cast; ring

/-- The rows are those of the passes up to the end or to the first failure. -/
theorem epRows_spec (env : Env) (nodes : List Ref) (xs : List Arr) (mk : ℝ → ℝ → ℝ → Row) (n : ℕ) (it : ℝ) (h : Heap) :
    (∀ i, i < (epRows env nodes xs mk n it h).1.length → (epFwdBack env nodes (passes env nodes i h)).1 = .ok () ∧
      ∃ r l, Metrics.nodeMetrics env (passes env nodes (i + 1) h) nodes xs = .ok (r, l) ∧
        (epRows env nodes xs mk n it h).1[i]? = some (mk (it + (i + 1)) r l)) ∧
    ∀ e, (epRows env nodes xs mk n it h).2 = .error e →
      (epFwdBack env nodes (passes env nodes (epRows env nodes xs mk n it h).1.length h)).1 = .error e ∨
        (epFwdBack env nodes (passes env nodes (epRows env nodes xs mk n it h).1.length h)).1 = .ok () ∧
        Metrics.nodeMetrics env (passes env nodes ((epRows env nodes xs mk n it h).1.length + 1) h) nodes xs = .error e := by
  induction n generalizing it h with
  | zero => simp [epRows]
  | succ n ih =>
    unfold epRows
    cases hp : (epFwdBack env nodes h).1 with
    | error e => exact ⟨by simp, fun e' he => .inl (by simpa [passes, hp] using he)⟩
    | ok u =>
      cases hm : Metrics.nodeMetrics env (epFwdBack env nodes h).2 nodes xs with
      | error e => exact ⟨by simp, fun e' he => .inr ⟨by simpa [passes] using hp, by simpa [passes, hm] using he⟩⟩
      | ok rl =>
        obtain ⟨r, l⟩ := rl
        obtain ⟨h1, h2⟩ := ih (it + 1) (epFwdBack env nodes h).2
        refine ⟨fun i hi => ?_, fun e he => ?_⟩
        · cases i with
          | zero => exact ⟨hp, r, l, hm, by simp⟩
          | succ i =>
            obtain ⟨a, r', l', b, c⟩ := h1 i (by simpa using hi)
            refine ⟨by rw [passes_succ]; exact a, r', l', by rw [passes_succ]; exact b, ?_⟩
            simp only [List.getElem?_cons_succ, c]
            congr 2; push_cast; ring
        · have := h2 e he
          simp only [List.length_cons]
          rw [passes_succ, passes_succ (n := _ + 1)]
          exact this

/-! ## `power_sweep` -/

/-- The rows `power_sweep` offers and how it ends. -/
noncomputable def powerRows (env : Env) (jac : Jac) (draw : Draw) (cfg : Config) (x y : List Arr) (seed : ℤ) (s : Setting) :
    List Row × Py Unit :=
  match powerSweepNodes env jac draw cfg y s ⟨fun _ => Node.init 0 0, 0⟩ with
  | (.error e, _) => ([], .error e)
  | (.ok nodes, h) => epRows env nodes x (expRow s.transId seed s.power s.damping) cfg.numIter 0 h

theorem powerSweep_run (env : Env) (jac : Jac) (draw : Draw) (cfg : Config) (x y : List Arr) (seed : ℤ) (s : Setting) {c : Conn}
    {rows : List Row} (hc : c.work cfg.expTable = some (expTable rows)) :
    powerSweep env jac draw cfg x y seed s c =
      ((powerRows env jac draw cfg x y seed s).2, commitRows cfg.expTable c rows (powerRows env jac draw cfg x y seed s).1) := by
  unfold powerSweep powerRows
  simp only
  cases hn : powerSweepNodes env jac draw cfg y s ⟨fun _ => Node.init 0 0, 0⟩ with
  | mk res h1 =>
  cases res with
  | error e =>
    rw [PyM.bind_error (s' := (⟨h1, c⟩ : World)) (e := e) (by rw [onHeap_run, hn])]
    rfl
  | ok nodes =>
    rw [PyM.bind_ok (s' := (⟨h1, c⟩ : World)) (a := nodes) (by rw [onHeap_run, hn])]
    obtain ⟨h', e, -⟩ := epLoop_run env nodes x cfg.expTable s.transId seed s.power s.damping cfg.numIter 0 (.num 0) (.num 0)
      (.num 0) (.num 0) h1 c rows hc
    have e' : epIterations env nodes cfg.numIter (some x) (s.expData seed) cfg.expTable ⟨h1, c⟩ = _ := e
    rw [e']

theorem powerRows_length (env : Env) (jac : Jac) (draw : Draw) (cfg : Config) (x y : List Arr) (seed : ℤ) (s : Setting) :
    (powerRows env jac draw cfg x y seed s).1.length ≤ cfg.numIter ∧
      ((powerRows env jac draw cfg x y seed s).1.length = cfg.numIter → cfg.numIter ≠ 0 →
        (powerRows env jac draw cfg x y seed s).2 = .ok ()) := by
  unfold powerRows
  split
  · exact ⟨Nat.zero_le _, fun h h' => absurd h.symm h'⟩
  · next nodes h _ =>
    obtain ⟨h1, h2⟩ := epRows_length env nodes x (expRow s.transId seed s.power s.damping) cfg.numIter 0 h
    exact ⟨h1, fun e _ => h2.1 e⟩

theorem powerRows_get (env : Env) (jac : Jac) (draw : Draw) (cfg : Config) (x y : List Arr) (seed : ℤ) (s : Setting) (i : ℕ)
    (row : Row) (hi : (powerRows env jac draw cfg x y seed s).1[i]? = some row) :
    ∃ r l, row = expRow s.transId seed s.power s.damping (i + 1) r l := by
  unfold powerRows at hi
  split at hi
  · simp at hi
  · next nodes h _ =>
    obtain ⟨r, l, e⟩ := epRows_get _ _ _ _ _ _ _ _ _ hi
    exact ⟨r, l, by simpa using e⟩

/-! ## `full_sweep` -/

theorem storedQuery_run {c : Conn} {name : String} {rows : List Row} (hc : c.work name = some (expTable rows)) (seed : ℤ)
    (s : Setting) :
    ∃ l, storedQuery name seed s c = (.ok l, c) ∧ (l.length = 0 ↔ ¬ ∃ r ∈ rows, Marks seed s r) := by
  classical
  unfold storedQuery Db.selectWhere
  rw [PyM.get_bind]
  simp only [hc]
  refine ⟨_, rfl, ?_⟩
  rw [List.length_eq_zero_iff, List.filter_eq_nil_iff]
  push Not
  refine forall₂_congr fun r hr => not_congr ?_
  simp only [List.all_cons, List.all_nil, Bool.and_true, Bool.and_eq_true, expTable, Table.cell, Marks]
  rcases r with _ | ⟨a', _ | ⟨b', _ | ⟨c', _ | ⟨d', _ | ⟨e', q⟩⟩⟩⟩⟩ <;> simp [List.lookup]
  tauto

end Verif
