import Verif.Model.Database

/-!
# Values on their way into and out of sqlite (`Utils/Database.py:21-59`)

`Model/Database.lean` keeps Python values in its tables.  Here is what the file holds instead and what a query makes of it.
-/

namespace Verif

/-- What sqlite holds in one column of one row.  Blobs are given by the format they were written in and what was written; that
`np.load` undoes `np.save` and `pickle.loads` undoes `pickle.dumps` is assumed. -/
inductive InFile
  | null
  | text (s : String)
  | real (x : ℝ)
  | npy (a : Arr)
  | pickled (l : List Arr)

/-- What a query returns in one column of one row: a value, or the bytes as they are. -/
inductive Fetched
  | value (c : Cell)
  | bytes (b : InFile)

namespace Db

/-- `adapt_array` (`Utils/Database.py:21-28`). -/
def adaptArray (a : Arr) : InFile := .npy a

/-- `adapt_list` (`Utils/Database.py:41-43`). -/
def adaptList (l : List Arr) : InFile := .pickled l

/-- Binding a value to a placeholder with the adapters of `Utils/Database.py:46,50`.  A numpy scalar is no `ndarray`: it is stored as
the `float` that it is. -/
def adapt : Cell → InFile
  | .null => .null
  | .text s => .text s
  | .num x => .real x
  | .array (.s x) => .real x
  | .array a => adaptArray a
  | .pickle l => adaptList l

/-- `convert_array` (`Utils/Database.py:31-34`): `np.load` refuses bytes that do not begin like an array file; it would only read a
pickle if told to. -/
def convertArray : InFile → Py Arr
  | .npy a => .ok a
  | _ => .error .value

/-- `convert_list` (`Utils/Database.py:37-38`) and `pickle.loads`, also on the text of a number.  Nothing but a pickle can be read (the
exception is `UnpicklingError` or another one, depending on the bytes; the model does not tell them apart). -/
def convertList : InFile → Py (List Arr)
  | .pickled l => .ok l
  | _ => .error .outOfModel

/-- A column for whose declared type there is no converter. -/
def unconverted : InFile → Fetched
  | .null => .value .null
  | .text s => .value (.text s)
  | .real x => .value (.num x)
  | b => .bytes b

/-- The converters by declared type (`Utils/Database.py:47-49`). -/
def convert (decl : String) (b : InFile) : Py Fetched :=
  if decl = "NParray" then do return .value (.array (← convertArray b))
  else if decl = "Nodes" then do return .value (.pickle (← convertList b))
  else if decl = "pickle" then do return .value (.pickle (← convertList b))
  else .ok (unconverted b)

/-- One column of a row, on a connection with `detect_types=PARSE_DECLTYPES` (`Utils/Database.py:58`).  `NULL` is never converted. -/
def fetch (decl : String) : InFile → Py Fetched
  | .null => .ok (.value .null)
  | .text s => convert decl (.text s)
  | .real x => convert decl (.real x)
  | .npy a => convert decl (.npy a)
  | .pickled l => convert decl (.pickled l)

/-- The declared types of `create_dynamics_table` (`Utils/Database.py:65-68`). -/
def dynDecl : List String := ["INT", "REAL", "NParray", "NParray"]

/-- The declared types of `create_experiment_table` (`Utils/Database.py:93-101`). -/
def expDecl : List String := ["TEXT", "INT", "REAL", "REAL", "REAL", "REAL", "REAL", "pickle", "pickle"]

/-- One row of `SELECT *`: the first column that cannot be read raises. -/
def fetchRow : List String → Row → Py (List Fetched)
  | d :: decl, c :: row => do
    let x ← fetch d (adapt c)
    return x :: (← fetchRow decl row)
  | _, _ => .ok []

/-- The rows of `SELECT *`. -/
def fetchRows (decl : List String) : List Row → Py (List (List Fetched))
  | [] => .ok []
  | r :: rows => do
    let x ← fetchRow decl r
    return x :: (← fetchRows decl rows)

/-- `db.execute("SELECT * FROM name").fetchall()` on a table whose columns were declared with types `decl`. -/
def fetchAll (name : String) (decl : List String) : PyM Conn (List (List Fetched)) := do
  let c ← PyM.get
  match c.work name with
  | none => PyM.raise .sql
  | some t => PyM.lift (fetchRows decl t.rows)

end Db

end Verif
