import Verif.Model.Gaussian

/-!
# Moment matching transforms (`MomentMatching/`)
-/

namespace Verif

/-- A Python function on arrays, possibly raising. -/
abbrev Func := Arr → Py Arr

/-- A `MappingTransform` seen through `__call__` (`MomentMatching/MomentMatch.py:77-78`): function and state to
(mean, covariance, cross covariance). -/
abbrev Transform := Func → Gaussian → Py (Arr × Arr × Arr)

namespace Arr

/-- The entry at a multi-index (0 outside the array; never read there). -/
def entry : Arr → List ℕ → ℝ
  | s a, [] => a
  | @v n f, [j] => if h : j < n then f ⟨j, h⟩ else 0
  | @m r c M, [i, j] => if h : i < r ∧ j < c then M ⟨i, h.1⟩ ⟨j, h.2⟩ else 0
  | _, _ => 0

/-- `np.vstack((a, b))`: rows of `a` above rows of `b`; `ValueError` if the column counts differ. -/
def vstack2 (a b : Arr) : Py Arr :=
  match a.atleast2d, b.atleast2d with
  | @m _ c A, @m _ c' B =>
    if h : c = c' then .ok (m (Matrix.of (Fin.append A fun i j => B i (Fin.cast h j)))) else .error .value
  | _, _ => .error .value

/-- `a[0]`: the first entry or row; `IndexError` on scalars and empty arrays. -/
def idx0 : Arr → Py Arr
  | s _ => .error .index
  | @v n f => if h : 0 < n then .ok (s (f ⟨0, h⟩)) else .error .index
  | @m r _ M => if h : 0 < r then .ok (v (M ⟨0, h⟩)) else .error .index

/-- `len(a)`; `TypeError` on scalars. -/
def len : Arr → Py ℕ
  | s _ => .error .type
  | @v n _ => .ok n
  | @m r _ _ => .ok r

/-- A copy of the array with `eps` added to entry (row) `i` along the first axis. -/
def bump : Arr → ℕ → ℝ → Arr
  | s a, _, _ => s a
  | v f, i, eps => v fun k => if k.val = i then f k + eps else f k
  | m M, i, eps => m fun k j => if k.val = i then M k j + eps else M k j

end Arr

/-- An array of any rank; only used for Jacobians. -/
structure Tensor where
  shape : List ℕ
  get : List ℕ → ℝ

namespace Tensor

/-- An `Arr` as a tensor. -/
def ofArr (a : Arr) : Tensor := ⟨a.shape, a.entry⟩

/-- A tensor of rank at most two as an `Arr`; higher ranks are outside the model. -/
def toArr (t : Tensor) : Py Arr :=
  match t.shape with
  | [] => .ok (.s (t.get []))
  | [n] => .ok (.v fun j : Fin n => t.get [j.val])
  | [r, c] => .ok (.m fun (i : Fin r) (j : Fin c) => t.get [i.val, j.val])
  | _ => .error .outOfModel

/-- Puts index 0 at the axes of length one: the index into the unsqueezed array. -/
def expand : List ℕ → List ℕ → List ℕ
  | [], _ => []
  | d :: ds, idx =>
    if d = 1 then 0 :: expand ds idx
    else match idx with
      | [] => 0 :: expand ds []
      | i :: is => i :: expand ds is

/-- `np.squeeze(t)`. -/
def squeeze (t : Tensor) : Tensor := ⟨t.shape.filter (· ≠ 1), fun idx => t.get (expand t.shape idx)⟩

/-- `t.T`: all axes reversed. -/
def T (t : Tensor) : Tensor := ⟨t.shape.reverse, fun idx => t.get idx.reverse⟩

/-- `t[0]`. -/
def idx0 (t : Tensor) : Py Tensor :=
  match t.shape with
  | d :: ds => if 0 < d then .ok ⟨ds, fun idx => t.get (0 :: idx)⟩ else .error .index
  | [] => .error .index

/-- `np.array(list_of_arrays)`. Arrays of different shapes are outside the model: they give an array of objects or `ValueError`,
depending on the version of numpy. -/
def stack : List Arr → Py Tensor
  | [] => .ok ⟨[0], fun _ => 0⟩
  | a :: as =>
    if as.all (fun b => b.shape = a.shape) then
      .ok ⟨(a :: as).length :: a.shape, fun idx =>
        match idx with
        | i :: is => ((a :: as).getD i a).entry is
        | [] => 0⟩
    else .error .outOfModel

end Tensor

/-- `autograd.jacobian(func)(x)` as an external function. -/
abbrev Jac := Func → Arr → Py Tensor

/-! ## Unscented transform -/

/-- The attributes `w_m`, `W`, `param_lambda`, `n` of an `UnscentedTransform` (`MomentMatching/UnscentedTransform.py:32-39`).
The weight arrays have length `2n+1`, written `1 + n + n`. -/
structure UT where
  n : ℕ
  lam : ℝ
  wm : Fin (1 + n + n) → ℝ
  W : Matrix (Fin (1 + n + n)) (Fin (1 + n + n)) ℝ

namespace UT

/-- `w_m` and `w_c` of `_weights` (`MomentMatching/UnscentedTransform.py:60-73`) once the division succeeded. -/
noncomputable def meanWeights (n : ℕ) (alpha kappa : ℝ) : Fin (1 + n + n) → ℝ := fun i =>
  let lam := alpha * alpha * (n + kappa) - n
  if i.val = 0 then lam / (n + lam) else 1 / (2 * (n + lam))

/-- See `meanWeights`. -/
noncomputable def covWeights (n : ℕ) (alpha beta kappa : ℝ) : Fin (1 + n + n) → ℝ := fun i =>
  let lam := alpha * alpha * (n + kappa) - n
  if i.val = 0 then lam / (n + lam) + (1 - alpha * alpha + beta) else 1 / (2 * (n + lam))

/-- `w_left = np.eye(2n+1) - w_m` (`MomentMatching/UnscentedTransform.py:75`): `w_m` is subtracted from every row. -/
def wLeft {N : ℕ} (wm : Fin N → ℝ) : Matrix (Fin N) (Fin N) ℝ := fun i j => (1 : Matrix (Fin N) (Fin N) ℝ) i j - wm j

/-- `UnscentedTransform.__init__` and `_weights` (`MomentMatching/UnscentedTransform.py:32-39`, `59-80`) for Python numbers
`alpha, beta, kappa`: a zero denominator raises `ZeroDivisionError`.  (`np.float`, line 64, needs numpy < 1.24.) -/
noncomputable def init (n : ℕ) (alpha beta kappa : ℝ) : Py UT :=
  let lam := alpha * alpha * (n + kappa) - n
  if (n : ℝ) + lam = 0 then .error .zeroDivision
  else
    let wm := meanWeights n alpha kappa
    let wc := covWeights n alpha beta kappa
    let W := (wLeft wm).transpose * Matrix.diagonal wc * wLeft wm
    .ok ⟨n, lam, wm, (2 : ℝ)⁻¹ • (W + W.transpose)⟩

/-- `_sigma_points` (`MomentMatching/UnscentedTransform.py:41-57`); `np.sqrt` of a negative number is `nan` (outside the
model); `None.T` in `symmetrize` is an `AttributeError`. -/
noncomputable def sigmaPoints (u : UT) (mean cov : Option Arr) : Py Arr := do
  if (u.n : ℝ) + u.lam < 0 then .error .outOfModel
  else
    let k := Real.sqrt (u.n + u.lam)
    let cov ← symmetrize (← need .attribute cov)
    let L ← tryBare (spCholeskyU cov) (jitteredCholU cov)
    let scaledL := L.smul k
    let mean ← need .type mean
    let plus ← mean.add scaledL
    let minus ← mean.sub scaledL
    (← mean.vstack2 plus).vstack2 minus

/-- `_transform` (`MomentMatching/UnscentedTransform.py:82-90`). -/
noncomputable def transform (env : Env) (u : UT) : Transform := fun func state => do
  let sigma ← u.sigmaPoints (← state.mean env) (← state.cov env)
  let Y ← func sigma
  let mean ← (Arr.v u.wm).matmul Y
  let cov ← symmetrize (← (← Y.T.matmul (.m u.W)).matmul Y)
  let cross ← (← sigma.T.matmul (.m u.W)).matmul Y
  return (mean, cov, cross)

end UT

/-! ## Taylor transform -/

/-- `TaylorTransform._transform` (`MomentMatching/TaylorLinearisation.py:49-59`) with `autograd.jacobian` as the argument `jac`.
A covariance of `None` would raise `TypeError`-like errors in `@`. -/
noncomputable def taylorTransform (env : Env) (jac : Jac) : Transform := fun func state => do
  let mean ← state.meanA env
  let J ← jac func mean
  let J ← (if 2 < J.shape.length then J.squeeze else J).toArr
  let mean' := (← func mean).squeeze
  let cov ← state.covA env
  let cov' ← (← J.matmul cov).matmul J.T
  let cross ← cov.matmul J.T
  return (mean', cov', cross)

/-- `TaylorTransform.numerical_jacobian` (`MomentMatching/TaylorLinearisation.py:30-47`). -/
noncomputable def numericalJacobian (f : Func) (x : Arr) (eps : ℝ) : Py Tensor := do
  let _ ← f x
  let n ← x.len
  let cols ← (List.range n).mapM fun i => do
    let y1 ← f (x.bump i eps)
    let y2 ← f (x.bump i (-eps))
    (← y1.sub y2).divS (2 * eps)
  return (← Tensor.stack cols).T

/-! ## Monte Carlo transform -/

/-- The result of `np.random.multivariate_normal(mean, cov, size=N)` for well-shaped arguments: an arbitrary `(N, n)` array. -/
abbrev Draw := ∀ (N : ℕ) {n : ℕ}, (Fin n → ℝ) → Matrix (Fin n) (Fin n) ℝ → Matrix (Fin N) (Fin n) ℝ

/-- `Gaussian.sample` (`StateModel/Gaussian.py:248-253`): numpy wants a vector mean and a square covariance of that size and
raises `ValueError` otherwise. -/
noncomputable def Gaussian.sample (env : Env) (draw : Draw) (N : ℕ) (g : Gaussian) : Py Arr := do
  let mean ← g.mean env
  let cov ← g.cov env
  match mean, cov with
  | some (@Arr.v n μ), some (@Arr.m r c C) =>
    if h : r = n ∧ c = n then
      .ok (.m (draw N μ (C.submatrix (Fin.cast h.1.symm) (Fin.cast h.2.symm))))
    else .error .value
  | _, _ => .error .value

/-- `np.mean(a, axis=-2)`: the mean over rows; too few axes raise `AxisError` (a `ValueError`), no rows give `nan`. -/
noncomputable def meanRows : Arr → Py Arr
  | @Arr.m r _ M => if r = 0 then .error .outOfModel else .ok (.v fun j => (∑ i, M i j) / r)
  | _ => .error .value

/-- The unbiased covariance of two families of rows, each row one variable: entry `(i,j)` of `np.cov`
(mean-centred products divided by `N - 1`). -/
noncomputable def covEntry {N : ℕ} (a b : Fin N → ℝ) : ℝ :=
  (∑ k, (a k - (∑ l, a l) / N) * (b k - (∑ l, b l) / N)) * (1 / (N - 1))

/-- `MonteCarloTransform.sample_covariance` (`MomentMatching/MonteCarloTransform.py:26-34`): blocks of
`np.cov(x, y, bias=False)`; `np.cov` concatenates (shape mismatch raises `ValueError`), squeezes its result (a single variable
becomes 0-d and can not be sliced), and gives `nan` for one sample. -/
noncomputable def sampleCovariance (y x : Arr) : Py (Arr × Arr) :=
  match x.atleast2d, y.atleast2d with
  | @Arr.m xd N X, @Arr.m yd N' Y =>
    if h : N = N' then
      if N ≤ 1 then .error .outOfModel
      else if xd + yd = 1 then .error .index
      else
        let Y' : Matrix (Fin yd) (Fin N) ℝ := Y.submatrix id (Fin.cast h)
        .ok (.m fun i j => covEntry (Y' i) (Y' j), .m fun i j => covEntry (X i) (Y' j))
    else .error .value
  | _, _ => .error .value

/-- `MonteCarloTransform._transform` (`MomentMatching/MonteCarloTransform.py:15-24`). -/
noncomputable def mcTransform (env : Env) (draw : Draw) (N : ℕ) : Transform := fun func state => do
  let samples ← state.sample env draw N
  let Y ← func samples
  let mean ← meanRows Y
  let (cov, cross) ← sampleCovariance Y.T samples.T
  return (mean, cov, cross)

end Verif
