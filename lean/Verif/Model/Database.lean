import Verif.Model.PyM

/-!
# `Utils/Database.py` on a model of sqlite

A table is a list of rows in order of insertion, with a `UNIQUE` constraint.  The byte formats of arrays and pickles are not
modelled: cells hold the Python values.  Numbers are real numbers (column types `INT` and `REAL` compare numerically).
-/

namespace Verif

/-- The value in one column of one row. -/
inductive Cell
  | null
  | text (s : String)
  | num (x : ℝ)
  | array (a : Arr)
  | pickle (l : List Arr)

/-- A row: one cell per column. -/
abbrev Row := List Cell

/-- A table with its columns, the columns of its `UNIQUE` constraint, and its rows in order of insertion. -/
structure Table where
  cols : List String
  uniq : List String
  rows : List Row

namespace Table

/-- The cell of `row` in column `c`. -/
def cell (cols : List String) (row : Row) (c : String) : Cell := ((cols.zip row).lookup c).getD .null

/-- The cells of a row in the columns of the constraint. -/
def key (t : Table) (row : Row) : List Cell := t.uniq.map (cell t.cols row)

open Classical in
/-- Whether storing `row` would violate the constraint (`NULL` never equals anything). -/
noncomputable def conflicts (t : Table) (row : Row) : Bool :=
  decide (Cell.null ∉ t.key row) && t.rows.any fun r => decide (t.key r = t.key row)

/-- `INSERT OR IGNORE INTO t (cols) VALUES (vals)`: the number of values must be right and the columns must exist; columns that are
not mentioned become `NULL`; a row violating the constraint is dropped. -/
noncomputable def insertOrIgnore (t : Table) (cols : List String) (vals : List Cell) : Py Table :=
  if cols.length = vals.length ∧ ∀ c ∈ cols, c ∈ t.cols then
    let row := t.cols.map (cell cols vals)
    .ok (if t.conflicts row then t else { t with rows := t.rows ++ [row] })
  else .error .sql

end Table

/-- All tables by name. -/
abbrev Tables := String → Option Table

/-- A connection: `saved` is the content of the file, `work` what this connection sees, `inTx` whether a transaction is open.
`history` records the content of the file after every call so far, latest last: if the process dies, the file holds its last
entry. -/
structure Conn where
  saved : Tables
  work : Tables
  inTx : Bool
  history : List Tables

namespace Conn

/-- `sqlite3.connect` on a file with the given tables. -/
def connect (file : Tables) : Conn := ⟨file, file, false, [file]⟩

/-- Replaces the state after a call. -/
def record (c : Conn) : Conn := { c with history := c.history ++ [c.saved] }

end Conn

namespace Db

/-- `CREATE TABLE IF NOT EXISTS`: takes effect at once when no transaction is open. -/
def createTable (name : String) (cols uniq : List String) : PyM Conn Unit :=
  PyM.modify fun c =>
    let add (ts : Tables) : Tables := if (ts name).isSome then ts else Function.update ts name (some ⟨cols, uniq, []⟩)
    let work := add c.work
    (if c.inTx then { c with work := work } else { c with work := work, saved := work }).record

/-- `db.execute("INSERT OR IGNORE …", vals)`: opens a transaction if none is open; the table must exist. -/
noncomputable def insert (name : String) (cols : List String) (vals : List Cell) : PyM Conn Unit := do
  let c ← PyM.get
  match c.work name with
  | none => PyM.raise .sql
  | some t =>
    let t' ← PyM.lift (t.insertOrIgnore cols vals)
    PyM.modify fun c => ({ c with work := Function.update c.work name (some t'), inTx := true }).record

/-- `conn.commit()`. -/
def commit : PyM Conn Unit := PyM.modify fun c => ({ c with saved := c.work, inTx := false }).record

open Classical in
/-- `SELECT c FROM name WHERE c₁ = v₁ AND …`, as the list of matching rows. -/
noncomputable def selectWhere (name : String) (conds : List (String × Cell)) : PyM Conn (List Row) := do
  let c ← PyM.get
  match c.work name with
  | none => PyM.raise .sql
  | some t => return t.rows.filter fun r => conds.all fun q => decide (Table.cell t.cols r q.1 = q.2 ∧ q.2 ≠ .null)

/-! ## `Utils/Database.py` -/

/-- `create_dynamics_table` (`Utils/Database.py:61-71`). -/
def createDynamicsTable (name : String) : PyM Conn Unit := createTable name ["Seed", "t", "X", "Y"] ["Seed", "t"]

/-- The loop of `insert_dynamics_data` (`Utils/Database.py:82-87`) from time `t`. -/
noncomputable def insertDynamicsLoop (name : String) (seed : ℤ) : ℕ → List (Arr × Arr) → PyM Conn Unit
  | _, [] => pure ()
  | t, (x, y) :: data => do
    insert name ["Seed", "t", "X", "Y"] [.num seed, .num t, .array x, .array y]
    insertDynamicsLoop name seed (t + 1) data

/-- `insert_dynamics_data` (`Utils/Database.py:79-87`). -/
noncomputable def insertDynamicsData (name : String) (data : List (Arr × Arr)) (seed : ℤ) : PyM Conn Unit :=
  insertDynamicsLoop name seed 0 data

/-- The columns of the experiment table (`Utils/Database.py:93-101`). -/
def expCols : List String := ["Transform", "Seed", "Iter", "Power", "Damping", "RMSE", "NLL", "Mean", "Variance"]

/-- `create_experiment_table` (`Utils/Database.py:90-104`). -/
def createExperimentTable (name : String) : PyM Conn Unit :=
  createTable name expCols ["Transform", "Seed", "Iter", "Power", "Damping"]

/-- A Python dict with string keys, in order of insertion. -/
abbrev Dict := List (String × Cell)

/-- `d[k] = v`: replaces the value in place or appends the key. -/
def Dict.set : Dict → String → Cell → Dict
  | [], k, v => [(k, v)]
  | (k', v') :: d, k, v => if k' = k then (k, v) :: d else (k', v') :: Dict.set d k v

/-- `d[k]`; a missing key is a `KeyError` (not otherwise modelled). -/
def Dict.item (d : Dict) (k : String) : Py Cell :=
  match d.lookup k with
  | some v => .ok v
  | none => .error .outOfModel

/-- `del d[k]`. -/
def Dict.del (d : Dict) (k : String) : Dict := d.filter fun p => p.1 ≠ k

/-- `d[k] += 1`. -/
noncomputable def Dict.incr (d : Dict) (k : String) : Py Dict := do
  match ← d.item k with
  | .num x => return d.set k (.num (x + 1))
  | _ => .error .type

/-- `insert_experiment_data` (`Utils/Database.py:107-117`): the values in dict order are put into the columns. -/
noncomputable def insertExperimentData (name : String) (data : Dict) : PyM Conn Unit :=
  insert name expCols (data.map Prod.snd)

end Db

end Verif
