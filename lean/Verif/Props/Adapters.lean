import Verif.Model.Adapters
import Verif.Props.Database
import Verif.Props.GrowthSweep
import Verif.Props.Trajectory

/-!
# C113: what the tables store can be read back
-/

namespace Verif

/-- The value is an array of rank at least one, not a numpy scalar. -/
def IsArray (a : Arr) : Prop := a.shape ≠ []

/-- **C113.** A column of type `NParray` gives back exactly arrays and missing values; anything else stored there makes every query of
the column raise. -/
theorem C113_array_column (c : Cell) : (Db.fetch "NParray" (Db.adapt c) = .ok (.value c) ↔ c = .null ∨ ∃ a, c = .array a ∧ IsArray a) ∧
    (Db.fetch "NParray" (Db.adapt c) = .ok (.value c) ∨ Db.fetch "NParray" (Db.adapt c) = .error .value) := by
  unfold IsArray
  have hb : ∀ (e : Err) (f : Arr → Py Fetched), ((.error e : Py Arr) >>= f) = .error e := fun _ _ => rfl
  rcases c with _ | s | x | (x | f | M) | l <;>
    simp [Db.fetch, Db.convert, Db.adapt, Db.adaptArray, Db.adaptList, Db.convertArray, Arr.shape, ok_bind, hb, pure, Except.pure]

/-- **C113.** A column of type `pickle` gives back exactly lists and missing values; anything else stored there, such as a number or an
array, makes every query of the column raise. -/
theorem C113_list_column (c : Cell) : (Db.fetch "pickle" (Db.adapt c) = .ok (.value c) ↔ c = .null ∨ ∃ l, c = .pickle l) ∧
    (Db.fetch "pickle" (Db.adapt c) = .ok (.value c) ∨ ∃ e, Db.fetch "pickle" (Db.adapt c) = .error e) := by
  have hb : ∀ (e : Err) (f : List Arr → Py Fetched), ((.error e : Py (List Arr)) >>= f) = .error e := fun _ _ => rfl
  rcases c with _ | s | x | (x | f | M) | l <;>
    simp [Db.fetch, Db.convert, Db.adapt, Db.adaptArray, Db.adaptList, Db.convertList, ok_bind, hb, pure, Except.pure]

/-- **C113.** Columns of the other types give back texts, numbers and missing values. -/
theorem C113_plain_column {decl : String} (hd : decl = "TEXT" ∨ decl = "INT" ∨ decl = "REAL") (c : Cell) :
    Db.fetch decl (Db.adapt c) = .ok (.value c) ↔ c = .null ∨ (∃ s, c = .text s) ∨ ∃ x, c = .num x := by
  have h1 : decl ≠ "NParray" := by rcases hd with rfl | rfl | rfl <;> decide
  have h2 : decl ≠ "Nodes" := by rcases hd with rfl | rfl | rfl <;> decide
  have h3 : decl ≠ "pickle" := by rcases hd with rfl | rfl | rfl <;> decide
  rcases c with _ | s | x | (x | f | M) | l <;>
    simp [Db.fetch, Db.convert, Db.adapt, Db.adaptArray, Db.adaptList, Db.unconverted, h1, h2, h3]

/-- **C113.** What is stored tells values apart, except a numpy scalar from a number: comparing keys as values, as
`Model/Database.lean` does, is comparing what the file holds. -/
theorem C113_told_apart {c d : Cell} (hc : ∀ a, c = .array a → IsArray a) (hd : ∀ a, d = .array a → IsArray a) :
    Db.adapt c = Db.adapt d ↔ c = d := by
  unfold IsArray at hc hd
  refine ⟨fun h => ?_, fun h => by rw [h]⟩
  rcases c with _ | s | x | (x | f | M) | l <;> rcases d with _ | s' | x' | (x' | f' | M') | l' <;>
    simp_all [Db.adapt, Db.adaptArray, Db.adaptList, Arr.shape]

private theorem fetchRows_ok {decl : List String} : ∀ {rows : List Row}, (∀ r ∈ rows, Db.fetchRow decl r = .ok (r.map .value)) →
    Db.fetchRows decl rows = .ok (rows.map fun r => r.map .value)
  | [], _ => rfl
  | r :: rows, h => by
    rw [Db.fetchRows, h r (by simp), ok_bind, fetchRows_ok fun q hq => h q (by simp [hq])]
    rfl

private theorem fetchRow_dyn (seed : ℤ) (t : ℝ) {x y : Arr} (hx : IsArray x) (hy : IsArray y) :
    Db.fetchRow Db.dynDecl [.num seed, .num t, .array x, .array y] = .ok [.value (.num seed), .value (.num t), .value (.array x), .value (.array y)] := by
  simp only [Db.dynDecl, Db.fetchRow, ok_bind, (C113_plain_column (.inr (.inl rfl)) (.num seed)).2 (.inr (.inr ⟨_, rfl⟩)),
    (C113_plain_column (.inr (.inr rfl)) (.num t)).2 (.inr (.inr ⟨_, rfl⟩)), (C113_array_column (.array x)).1.2 (.inr ⟨_, rfl, hx⟩),
    (C113_array_column (.array y)).1.2 (.inr ⟨_, rfl, hy⟩)]
  rfl

private theorem fetchRow_exp (tr : String) (seed : ℤ) (power damping iter rmse nll : ℝ) :
    Db.fetchRow Db.expDecl (expRow tr seed power damping iter rmse nll) = .ok ((expRow tr seed power damping iter rmse nll).map .value) := by
  have hn : ∀ (d : String) (x : ℝ), d = "TEXT" ∨ d = "INT" ∨ d = "REAL" → Db.fetch d (Db.adapt (.num x)) = .ok (.value (.num x)) :=
    fun d x hd => (C113_plain_column hd _).2 (.inr (.inr ⟨_, rfl⟩))
  simp only [Db.expDecl, expRow, Db.fetchRow, ok_bind, hn "INT" _ (by simp), hn "REAL" _ (by simp),
    (C113_plain_column (.inl rfl) (.text tr)).2 (.inr (.inl ⟨_, rfl⟩)), (C113_list_column (.pickle [])).1.2 (.inr ⟨_, rfl⟩)]
  rfl

private theorem dynRows_read (seed : ℤ) : ∀ (data : List (Arr × Arr)) (t : ℕ), (∀ p ∈ data, IsArray p.1 ∧ IsArray p.2) →
    ∀ r ∈ dynRows seed t data, Db.fetchRow Db.dynDecl r = .ok (r.map .value)
  | [], _, _, r, hr => by simp [dynRows] at hr
  | (x, y) :: data, t, h, r, hr => by
    rcases List.mem_cons.1 hr with rfl | hr
    · exact fetchRow_dyn seed t (h (x, y) (by simp)).1 (h (x, y) (by simp)).2
    · exact dynRows_read seed data (t + 1) (fun p hp => h p (by simp [hp])) r hr

/-- All rows of the table are rows of simulated data: seed, time and two arrays. -/
def DynData (rows : List Row) : Prop :=
  ∀ r ∈ rows, ∃ (seed : ℤ) (t : ℝ) (x y : Arr), r = [.num seed, .num t, .array x, .array y] ∧ IsArray x ∧ IsArray y

private theorem dynRows_times (seed : ℤ) : ∀ (data : List (Arr × Arr)) (t : ℕ), ∀ r ∈ dynRows seed t data,
    ∃ s : ℕ, t ≤ s ∧ r.take 2 = [.num seed, .num s]
  | [], _, r, hr => by simp [dynRows] at hr
  | (x, y) :: data, t, r, hr => by
    rcases List.mem_cons.1 hr with rfl | hr
    · exact ⟨t, le_rfl, rfl⟩
    · obtain ⟨s, h1, h2⟩ := dynRows_times seed data (t + 1) r hr
      exact ⟨s, by omega, h2⟩

private theorem dynRows_keyed (seed : ℤ) : ∀ (data : List (Arr × Arr)) (t : ℕ), Keyed 2 (dynRows seed t data)
  | [], _ => List.Pairwise.nil
  | (x, y) :: data, t => by
    refine List.Pairwise.cons (fun r hr e => ?_) (dynRows_keyed seed data (t + 1))
    obtain ⟨s, h1, h2⟩ := dynRows_times seed data (t + 1) r hr
    rw [h2] at e
    have : (t : ℝ) = s := by simpa using e
    have : t = s := by exact_mod_cast this
    omega

/-- **C113.** Simulated data inserted into a table of simulated data without rows of this seed: a query of the whole table gives the
rows that were there and then, in order, seed, time and the very arrays of the simulation. -/
theorem C113_simulated (name : String) (seed : ℤ) (data : List (Arr × Arr)) (hdata : ∀ p ∈ data, IsArray p.1 ∧ IsArray p.2) {c : Conn}
    {rows : List Row} (hc : c.work name = some (dynTable rows)) (hrows : DynData rows) (hnew : ∀ r ∈ rows, r.head? ≠ some (.num seed)) :
    ∃ c', Db.insertDynamicsData name data seed c = (.ok (), c') ∧
      Db.fetchAll name Db.dynDecl c' = (.ok ((rows ++ dynRows seed 0 data).map fun r => r.map .value), c') := by
  obtain ⟨c', h1, h2, -⟩ := insertDynamics_run name seed data 0 hc
  refine ⟨c', h1, ?_⟩
  rw [addRows_fresh (fun r hr q hq e => ?_) (dynRows_keyed seed data 0)] at h2
  · have hw : c'.work name = some (dynTable (rows ++ dynRows seed 0 data)) := by rw [h2, Function.update_self]
    have hf := fetchRows_ok (decl := Db.dynDecl) (rows := rows ++ dynRows seed 0 data) fun r hr => by
      rcases List.mem_append.1 hr with hr | hr
      · obtain ⟨s, t, x, y, rfl, hx, hy⟩ := hrows r hr
        exact fetchRow_dyn s t hx hy
      · exact dynRows_read seed data 0 hdata r hr
    show (match c'.work name with
      | none => PyM.raise .sql
      | some t => PyM.lift (Db.fetchRows Db.dynDecl t.rows)) c' = _
    rw [hw]
    exact congrArg (·, c') hf
  · obtain ⟨s, -, h⟩ := dynRows_times seed data 0 r hr
    rw [h] at e
    obtain ⟨s', t, x, y, rfl, -⟩ := hrows q hq
    refine hnew _ hq ?_
    simp only [List.take_succ_cons, List.take_zero, List.cons.injEq, Cell.num.injEq] at e
    simp [e.1]

/-- **C113.** What any system of the library simulates (C78) is read back from a new table as it was. -/
theorem C113_library {n k : ℕ} {row : Bool} {rng : Rng} {L : Laws n k} {F : ℝ → (Fin n → ℝ) → Fin n → ℝ} {H : (Fin n → ℝ) → Fin k → ℝ} {dt : ℝ}
    {N : ℕ} {data : List (Arr × Arr)} (h : Follows row rng L F H dt N data) (file : Tables) {name : String} (hf : file name = none) (seed : ℤ) :
    ∃ c', (do Db.createDynamicsTable name; Db.insertDynamicsData name data seed) (Conn.connect file) = (.ok (), c') ∧
      Db.fetchAll name Db.dynDecl c' = (.ok ((dynRows seed 0 data).map fun r => r.map .value), c') := by
  have hpt : ∀ {m : ℕ} {a : Arr} {x : Fin m → ℝ}, PointAs row a x → IsArray a := fun {m a x} h => by
    cases row <;> (rw [show a = _ from h]; simp [IsArray, Arr.shape])
  set c1 := (Db.createDynamicsTable name (Conn.connect file)).2 with hc1
  have hw : c1.work name = some (dynTable []) := by
    simp [hc1, Db.createDynamicsTable, Db.createTable, PyM.modify, Conn.connect, Conn.record, hf, dynTable]
  obtain ⟨c', e1, e2⟩ := C113_simulated name seed data (fun p hp => by
    obtain ⟨i, hi, e⟩ := List.getElem_of_mem hp
    have hi' : data[i]? = some p := by rw [List.getElem?_eq_getElem hi, e]
    exact ⟨hpt (h.state i p hi'), hpt (h.measurement i p hi')⟩) hw (by simp [DynData]) (by simp)
  refine ⟨c', ?_, by simpa using e2⟩
  have : Db.createDynamicsTable name (Conn.connect file) = (.ok (), c1) := rfl
  rw [PyM.bind_ok this]
  exact e1

-- the growth model, from a new database
example (env : Env) (rng : Rng) (N : ℕ) : ∃ sys data c', UNGM.init = .ok sys ∧ simData env rng 1 1 sys N = .ok data ∧ data.length = N ∧
    (do Db.createDynamicsTable "UNGM_SIM"; Db.insertDynamicsData "UNGM_SIM" data 101) (Conn.connect fun _ => none) = (.ok (), c') ∧
    Db.fetchAll "UNGM_SIM" Db.dynDecl c' = (.ok ((dynRows 101 0 data).map fun r => r.map .value), c') := by
  obtain ⟨sys, data, h1, h2, h3⟩ := C78_growth (env := env) rng N
  obtain ⟨c', e1, e2⟩ := C113_library h3 (fun _ => none) (name := "UNGM_SIM") rfl 101
  exact ⟨sys, data, c', h1, h2, h3.length, e1, e2⟩

/-- **C113.** A table of results whose rows come from `ep_iterations` (C45) is read back as it was. -/
theorem C113_results {name : String} {rows : List Row}
    (h : ∀ r ∈ rows, ∃ (tr : String) (seed : ℤ) (power damping iter rmse nll : ℝ), r = expRow tr seed power damping iter rmse nll) {c : Conn}
    (hc : c.work name = some (expTable rows)) :
    Db.fetchAll name Db.expDecl c = (.ok (rows.map fun r => r.map .value), c) := by
  show (match c.work name with
    | none => PyM.raise .sql
    | some t => PyM.lift (Db.fetchRows Db.expDecl t.rows)) c = _
  rw [hc]
  refine congrArg (·, c) (fetchRows_ok fun r hr => ?_)
  obtain ⟨tr, seed, power, damping, iter, rmse, nll, rfl⟩ := h r hr
  exact fetchRow_exp tr seed power damping iter rmse nll

/-- **C113.** One row with a number or an array for `Mean`, such as the `0.0` that `power_sweep` starts with, and the whole table cannot be
read any more, whatever the rows before. -/
theorem C113_unreadable {name : String} {rows rest : List Row}
    (h : ∀ r ∈ rows, ∃ (tr : String) (seed : ℤ) (power damping iter rmse nll : ℝ), r = expRow tr seed power damping iter rmse nll)
    (tr : String) (seed : ℤ) (power damping iter rmse nll : ℝ) {mean var : Cell} (hm : (∃ x, mean = .num x) ∨ ∃ a, mean = .array a) {c : Conn}
    (hc : c.work name =
      some (expTable (rows ++ [.text tr, .num seed, .num iter, .num power, .num damping, .num rmse, .num nll, mean, var] :: rest))) :
    ∃ e, Db.fetchAll name Db.expDecl c = (.error e, c) := by
  have hn : ∀ (d : String) (x : ℝ), d = "TEXT" ∨ d = "INT" ∨ d = "REAL" → Db.fetch d (Db.adapt (.num x)) = .ok (.value (.num x)) :=
    fun d x hd => (C113_plain_column hd _).2 (.inr (.inr ⟨_, rfl⟩))
  obtain ⟨e, he⟩ : ∃ e, Db.fetch "pickle" (Db.adapt mean) = .error e := by
    refine (C113_list_column mean).2.resolve_left fun h => ?_
    rcases (C113_list_column mean).1.1 h with rfl | ⟨l, rfl⟩ <;> simp at hm
  have hbad : Db.fetchRow Db.expDecl [.text tr, .num seed, .num iter, .num power, .num damping, .num rmse, .num nll, mean, var] = .error e := by
    simp only [Db.expDecl, Db.fetchRow, ok_bind, hn "INT" _ (by simp), hn "REAL" _ (by simp),
      (C113_plain_column (.inl rfl) (.text tr)).2 (.inr (.inl ⟨_, rfl⟩)), he]
    rfl
  refine ⟨e, ?_⟩
  show (match c.work name with
    | none => PyM.raise .sql
    | some t => PyM.lift (Db.fetchRows Db.expDecl t.rows)) c = _
  rw [hc]
  refine congrArg (·, c) ?_
  show Db.fetchRows Db.expDecl (rows ++ _ :: rest) = _
  clear hc
  induction rows with
  | nil =>
    show Db.fetchRows Db.expDecl (_ :: rest) = _
    rw [Db.fetchRows, hbad]
    rfl
  | cons r rows ih =>
    obtain ⟨tr', seed', power', damping', iter', rmse', nll', rfl⟩ := h r (by simp)
    show Db.fetchRows Db.expDecl (_ :: (rows ++ _ :: rest)) = _
    rw [Db.fetchRows, fetchRow_exp, ok_bind, ih fun q hq => h q (by simp [hq])]
    rfl

-- a table with one result of a sweep is read, and is not after an array was stored as its mean
example : Db.fetchAll "E" Db.expDecl (Conn.connect fun _ => some (expTable [expRow "UT" 1 1 1 1 3 4])) =
    (.ok [(expRow "UT" 1 1 1 1 3 4).map .value], Conn.connect fun _ => some (expTable [expRow "UT" 1 1 1 1 3 4])) :=
  C113_results (rows := [expRow "UT" 1 1 1 1 3 4]) (fun r hr => ⟨"UT", 1, 1, 1, 1, 3, 4, by simpa using hr⟩) rfl

example : ∃ e, Db.fetchAll "E" Db.expDecl (Conn.connect fun _ => some (expTable
    [[.text "UT", .num 1, .num 1, .num 1, .num 1, .num 3, .num 4, .array (.v fun _ : Fin 1 => 2), .pickle []]])) =
      (.error e, Conn.connect fun _ => some (expTable
        [[.text "UT", .num 1, .num 1, .num 1, .num 1, .num 3, .num 4, .array (.v fun _ : Fin 1 => 2), .pickle []]])) :=
  C113_unreadable (rows := []) (rest := []) (by simp) "UT" 1 1 1 1 3 4 (mean := .array (.v fun _ : Fin 1 => 2)) (var := .pickle [])
    (.inr ⟨_, rfl⟩) (by simp [Conn.connect])

end Verif
