import Mathlib.Data.Real.Basic
import Mathlib.Data.Matrix.Mul
import Mathlib.LinearAlgebra.Matrix.NonsingularInverse
import Mathlib.Analysis.Matrix.PosDef

/-!
# Python exceptions and numpy arrays

The part of numpy used by the code base, on arrays of rank at most two whose entries are real numbers.
Shapes are part of the value, broadcasting and shape errors follow numpy.
-/

namespace Verif

/-- Python exceptions that the code raises, catches or lets escape.  `linAlg` is
`numpy.linalg.LinAlgError` (scipy's is the same class), `linAlgWarning` is `scipy.linalg.LinAlgWarning`, which
`StateModel/Gaussian.py:31` and `UnscentedTransform.py:24` turn into an exception.  `outOfModel` marks places where
the Python program would leave the real numbers (division of an array by zero) or arrays of rank ≤ 2.  `sql` stands for the errors
of `sqlite3`. -/
inductive Err
  | linAlg | linAlgWarning | value | attribute | index | type | assertion | overload
  | stopIteration | zeroDivision | sql | outOfModel
  deriving DecidableEq, Repr

/-- A Python computation without visible side effects: a value or an exception. -/
abbrev Py := Except Err

/-- A real numpy array of rank 0, 1 or 2: shapes `()`, `(n,)`, `(r,c)`. -/
inductive Arr
  | s (a : ℝ)
  | v {n : ℕ} (f : Fin n → ℝ)
  | m {r c : ℕ} (M : Matrix (Fin r) (Fin c) ℝ)

namespace Arr

/-- `a.shape`. -/
def shape : Arr → List ℕ
  | s _ => []
  | @v n _ => [n]
  | @m r c _ => [r, c]

/-- `np.ndim(a)`. -/
def ndim (a : Arr) : ℕ := a.shape.length

/-- Number of rows after broadcasting to rank 2 (a missing axis counts as 1). -/
def rows : Arr → ℕ
  | s _ => 1
  | v _ => 1
  | @m r _ _ => r

/-- Number of columns after broadcasting to rank 2 (a missing axis counts as 1). -/
def cols : Arr → ℕ
  | s _ => 1
  | @v n _ => n
  | @m _ c _ => c

/-- Entry `[i, j]` of the array stretched along axes of length one.  Indices are taken modulo the axis length,
which is the identity on an axis of full length and stretches an axis of length one; an axis of length zero has no
entry (value irrelevant). -/
def bget : Arr → ℕ → ℕ → ℝ
  | s a, _, _ => a
  | @v n f, _, j => if h : j % n < n then f ⟨j % n, h⟩ else 0
  | @m r c M, i, j => if h : i % r < r ∧ j % c < c then M ⟨i % r, h.1⟩ ⟨j % c, h.2⟩ else 0

/-- numpy's rule for one axis: equal lengths, or one of them is 1. -/
def bdim (a b : ℕ) : Option ℕ :=
  if a = b then some a else if a = 1 then some b else if b = 1 then some a else none

/-- A binary ufunc with broadcasting; incompatible shapes raise `ValueError`. -/
def zip (op : ℝ → ℝ → ℝ) (a b : Arr) : Py Arr :=
  match bdim a.rows b.rows, bdim a.cols b.cols with
  | some r, some c =>
    match max a.ndim b.ndim with
    | 0 => .ok (s (op (a.bget 0 0) (b.bget 0 0)))
    | 1 => .ok (v (n := c) fun j => op (a.bget 0 j) (b.bget 0 j))
    | _ => .ok (m (r := r) (c := c) fun i j => op (a.bget i j) (b.bget i j))
  | _, _ => .error .value

/-- `a + b`. -/
def add (a b : Arr) : Py Arr := zip (· + ·) a b
/-- `a - b`. -/
def sub (a b : Arr) : Py Arr := zip (· - ·) a b
/-- `a * b` (elementwise). -/
def mulE (a b : Arr) : Py Arr := zip (· * ·) a b

/-- A unary ufunc. -/
def map (g : ℝ → ℝ) : Arr → Arr
  | s a => s (g a)
  | v f => v fun i => g (f i)
  | m M => m fun i j => g (M i j)

/-- `k * a` for a Python number `k`. -/
def smul (k : ℝ) (a : Arr) : Arr := a.map (k * ·)

/-- `a / k` for a Python number `k`; division of an array by zero gives infinities, outside the model. -/
noncomputable def divS (a : Arr) (k : ℝ) : Py Arr := if k = 0 then .error .outOfModel else .ok (a.map (· / k))

/-- `a += b`: numpy refuses when the result would not fit into `a`.  (0-d results are numpy scalars, for which
`+=` rebinds the name, so any result is allowed.) -/
def iadd (a b : Arr) : Py Arr :=
  match a with
  | s _ => add a b
  | _ => match add a b with
    | .ok r => if r.shape = a.shape then .ok r else .error .value
    | .error e => .error e

/-- `a.T`. -/
def T : Arr → Arr
  | s a => s a
  | v f => v f
  | m M => m M.transpose

/-- `a @ b` (`np.matmul`): scalars are rejected, inner dimensions must agree. -/
def matmul : Arr → Arr → Py Arr
  | @v n f, @v n' g => if h : n = n' then .ok (s (dotProduct f fun i => g (Fin.cast h i))) else .error .value
  | @v n f, @m r _ N => if h : n = r then .ok (v (Matrix.vecMul f (N.submatrix (Fin.cast h) id))) else .error .value
  | @m _ c M, @v n f => if h : c = n then .ok (v (M.mulVec fun i => f (Fin.cast h i))) else .error .value
  | @m _ c M, @m r' _ N => if h : c = r' then .ok (m (M * N.submatrix (Fin.cast h) id)) else .error .value
  | _, _ => .error .value

/-- `np.dot(a, b)`: like `@` for rank ≥ 1, plain multiplication if one operand is a scalar. -/
def dot : Arr → Arr → Py Arr
  | s a, b => .ok (b.smul a)
  | b, s a => .ok (b.smul a)
  | a, b => matmul a b

/-- `np.atleast_1d(a)`. -/
def atleast1d : Arr → Arr
  | s a => v (n := 1) fun _ => a
  | a => a

/-- `np.atleast_2d(a)`. -/
def atleast2d : Arr → Arr
  | s a => m (r := 1) (c := 1) fun _ _ => a
  | v f => m (r := 1) fun _ j => f j
  | a => a

/-- `a.reshape(-1, 1)` of a vector or scalar; of a matrix in row-major order. -/
def reshapeCol : Arr → Arr
  | s a => m (r := 1) (c := 1) fun _ _ => a
  | v f => m (c := 1) fun i _ => f i
  | @m r c M => m (r := r * c) (c := 1) fun i _ => M (finProdFinEquiv.symm i).1 (finProdFinEquiv.symm i).2

/-- `np.squeeze(a)`: drops axes of length one. -/
def squeeze : Arr → Arr
  | s a => s a
  | @v n f => if h : n = 1 then s (f (Fin.cast h.symm 0)) else v f
  | @m r c M =>
    if hr : r = 1 then
      if hc : c = 1 then s (M (Fin.cast hr.symm 0) (Fin.cast hc.symm 0))
      else v fun j => M (Fin.cast hr.symm 0) j
    else if hc : c = 1 then v fun i => M i (Fin.cast hc.symm 0)
    else m M

/-- `np.zeros((n,))`. -/
def zeros (n : ℕ) : Arr := v (n := n) fun _ => 0

/-- `np.eye(n)`. -/
def eye (n : ℕ) : Arr := m (1 : Matrix (Fin n) (Fin n) ℝ)

/-- `a.shape[0]`; `IndexError` on scalars. -/
def shape0 : Arr → Py ℕ
  | s _ => .error .index
  | @v n _ => .ok n
  | @m r _ _ => .ok r

/-- `a.shape[-1]`; `IndexError` on scalars. -/
def shapeLast : Arr → Py ℕ
  | s _ => .error .index
  | @v n _ => .ok n
  | @m _ c _ => .ok c

/-- `np.trace(a)`: the sum of the diagonal entries; rank ≥ 2 required. -/
def trace : Arr → Py ℝ
  | @m r c M => .ok (∑ i : Fin r, if h : i.val < c then M i ⟨i.val, h⟩ else 0)
  | _ => .error .value

/-- All entries of the array in row-major order. -/
def entries : Arr → List ℝ
  | s a => [a]
  | v f => List.ofFn f
  | m M => (List.ofFn fun i => List.ofFn (M i)).flatten

end Arr

end Verif
