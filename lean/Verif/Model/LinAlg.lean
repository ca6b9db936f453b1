import Verif.Model.Arr
import Verif.Lemmas.Cholesky

/-!
# Linear algebra helpers (`Utils/linalg.py`) and the numpy / scipy routines they call

The library routines are modelled by their mathematical contract in exact arithmetic.  Whether scipy reports an
ill-conditioned matrix (`LinAlgWarning`, turned into an exception by `StateModel/Gaussian.py:31`) is decided by
arbitrary oracles collected in `Env`.
-/

namespace Verif

/-- External decisions that the model leaves open: does `scipy.linalg.solve` (with `assume_a='pos'` / `'gen'`) warn about
the condition number of this invertible matrix? -/
structure Env where
  illPos : ∀ {n : ℕ}, Matrix (Fin n) (Fin n) ℝ → Bool
  illGen : ∀ {n : ℕ}, Matrix (Fin n) (Fin n) ℝ → Bool

/-- `try: x  except: y` (bare `except`, `Utils/linalg.py:39-42`, `StateModel/Gaussian.py:43-56`, `64-72`). -/
def tryBare {α : Type} (x y : Py α) : Py α :=
  match x with
  | .ok a => .ok a
  | .error _ => y

/-- The symmetric matrix a LAPACK routine with `uplo='L'` sees. -/
def lowerSym {n : ℕ} (A : Matrix (Fin n) (Fin n) ℝ) : Matrix (Fin n) (Fin n) ℝ :=
  fun i j => if j ≤ i then A i j else A j i

/-- The symmetric matrix a LAPACK routine with `uplo='U'` sees. -/
def upperSym {n : ℕ} (A : Matrix (Fin n) (Fin n) ℝ) : Matrix (Fin n) (Fin n) ℝ :=
  fun i j => if i ≤ j then A i j else A j i

/-- The upper Cholesky factor; `exists_upperChol` and `upperChol_unique` (`Lemmas/Cholesky.lean`) show that it exists and
is unique. -/
noncomputable def cholU {n : ℕ} {A : Matrix (Fin n) (Fin n) ℝ} (h : A.PosDef) : Matrix (Fin n) (Fin n) ℝ :=
  Classical.choose (exists_upperChol h)

open Classical in
/-- `np.linalg.cholesky(a)` used as a test only (`Utils/linalg.py:50`, `MomentMatching/Estimator.py:58,69,75`): numpy reads
the lower triangle and raises `LinAlgError` unless it is the lower triangle of a positive definite matrix.  numpy also raises
`LinAlgError` for arrays that are not square matrices.  The factor itself is never used by the code. -/
noncomputable def npCholesky : Arr → Py Unit
  | @Arr.m r c A =>
    if h : r = c then
      if (lowerSym (A.submatrix id (Fin.cast h))).PosDef then .ok () else .error .linAlg
    else .error .linAlg
  | _ => .error .linAlg

open Classical in
/-- `scipy.linalg.cholesky(a, lower=False)`: reads the upper triangle, returns the upper Cholesky factor, `LinAlgError` if
not positive definite, `ValueError` if not square. -/
noncomputable def spCholeskyU (a : Arr) : Py Arr :=
  match a.atleast2d with
  | @Arr.m r c A =>
    if h : r = c then
      if hp : (upperSym (A.submatrix id (Fin.cast h))).PosDef then .ok (.m (cholU hp)) else .error .linAlg
    else .error .value
  | _ => .error .value

open Classical in
/-- `scipy.linalg.cholesky(a, lower=True)`: reads the lower triangle, returns the lower Cholesky factor. -/
noncomputable def spCholeskyL (a : Arr) : Py Arr :=
  match a.atleast2d with
  | @Arr.m r c A =>
    if h : r = c then
      if hp : (lowerSym (A.submatrix id (Fin.cast h))).PosDef then .ok (.m (cholU hp).transpose) else .error .linAlg
    else .error .value
  | _ => .error .value

open Classical in
/-- `np.linalg.solve(a, b)` with a matrix right-hand side: `a⁻¹ b`; `LinAlgError` if `a` is not a square matrix or is singular;
`ValueError` if the shapes do not fit.  (The code only passes matrices as `b`; vectors are included.) -/
noncomputable def npSolve : Arr → Arr → Py Arr
  | @Arr.m r c A, b =>
    if h : r = c then
      let A' := A.submatrix id (Fin.cast h)
      match b with
      | @Arr.m r' _ B =>
        if h' : r = r' then
          if A'.det = 0 then .error .linAlg else .ok (.m (A'⁻¹ * B.submatrix (Fin.cast h') id))
        else .error .value
      | @Arr.v n f =>
        if h' : r = n then
          if A'.det = 0 then .error .linAlg else .ok (.v (A'⁻¹.mulVec fun i => f (Fin.cast h' i)))
        else .error .value
      | .s _ => .error .value
    else .error .linAlg
  | _, _ => .error .linAlg

open Classical in
/-- `scipy.linalg.solve(a, b, assume_a='pos')` for a square matrix `a` and matrix `b`: reads the upper triangle; `LinAlgError` if
not positive definite, `LinAlgWarning` if the condition estimate says so, else `a⁻¹ b`; `ValueError` for wrong shapes. -/
noncomputable def spSolvePos (env : Env) (a b : Arr) : Py Arr :=
  match a.atleast2d, b with
  | @Arr.m r c A, @Arr.m r' _ B =>
    if h : r = c then
      if h' : r = r' then
        let A' := upperSym (A.submatrix id (Fin.cast h))
        if A'.PosDef then
          if env.illPos A' then .error .linAlgWarning else .ok (.m (A'⁻¹ * B.submatrix (Fin.cast h') id))
        else .error .linAlg
      else .error .value
    else .error .value
  | _, _ => .error .value

open Classical in
/-- `scipy.linalg.solve(a, b, assume_a='gen')`: `LinAlgError` if singular, `LinAlgWarning` if ill-conditioned, else `a⁻¹ b`. -/
noncomputable def spSolveGen (env : Env) (a b : Arr) : Py Arr :=
  match a.atleast2d, b with
  | @Arr.m r c A, @Arr.m r' _ B =>
    if h : r = c then
      if h' : r = r' then
        let A' := A.submatrix id (Fin.cast h)
        if A'.det = 0 then .error .linAlg
        else if env.illGen A' then .error .linAlgWarning
        else .ok (.m (A'⁻¹ * B.submatrix (Fin.cast h') id))
      else .error .value
    else .error .value
  | _, _ => .error .value

/-- `symmetrize` (`Utils/linalg.py:45-46`). -/
noncomputable def symmetrize (a : Arr) : Py Arr := do
  let s ← a.add a.T
  s.divS 2

/-- `JIT` (`Utils/linalg.py:18`). -/
noncomputable def JIT : ℝ := 1 / 10 ^ 10

/-- The common preamble of the jittered routines (`Utils/linalg.py:25-26`, `37-38`). -/
noncomputable def jitter (a : Arr) : Py Arr := do
  let a ← symmetrize a
  let n ← a.shapeLast
  a.add ((Arr.eye n).smul JIT)

/-- `jittered_solve(a, b, assume_a='pos')` (`Utils/linalg.py:34-43`) with the default jitter. -/
noncomputable def jitteredSolve (env : Env) (a b : Arr) : Py Arr := do
  let a ← jitter a
  tryBare (spSolvePos env a b) (spSolveGen env a b)

/-- `jittered_chol(a, lower=False)` (`Utils/linalg.py:21-31`) with the default jitter. -/
noncomputable def jitteredCholU (a : Arr) : Py Arr := do
  let a ← jitter a
  spCholeskyU a

end Verif
