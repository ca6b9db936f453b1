import Verif.Model.LinAlg

/-!
# `StateModel/Gaussian.py`
-/

namespace Verif

/-- `LARGE_NUM` (`StateModel/Gaussian.py:29`). -/
noncomputable def LARGE_NUM : ℝ := 10 ^ 10

/-- The threshold below which a precision counts as zero (`StateModel/Gaussian.py:36`). -/
noncomputable def TRACE_EPS : ℝ := 1 / 10 ^ 10

/-- Using `None` where an object is needed: raises `e` (`AttributeError` for `None.shape`, `TypeError` for arithmetic). -/
def need (e : Err) : Option Arr → Py Arr
  | some a => .ok a
  | none => .error e

/-- `natural_to_moment` (`StateModel/Gaussian.py:33-59`).  The arguments can be `None` if the object was built that way. -/
noncomputable def naturalToMoment (env : Env) (precision shift : Option Arr) : Py (Arr × Arr) := do
  let precision ← need .attribute precision
  let dim ← precision.shape0
  let tr ← precision.trace
  if tr < TRACE_EPS then
    let mean := Arr.zeros dim
    let cov ← symmetrize ((Arr.eye dim).smul LARGE_NUM)
    return (mean, cov)
  else
    let cov ← tryBare (spSolvePos env precision (Arr.eye dim)) (jitteredSolve env precision (Arr.eye dim))
    let cov ← symmetrize cov
    let shift ← need .type shift
    let mean ← cov.dot shift
    return (mean, cov)

/-- `moment_to_natural` (`StateModel/Gaussian.py:62-78`). -/
noncomputable def momentToNatural (env : Env) (mean cov : Option Arr) : Py (Arr × Arr) := do
  let cov ← need .attribute cov
  let dim ← cov.shape0
  let precision ← tryBare (spSolvePos env cov (Arr.eye dim)) (jitteredSolve env cov (Arr.eye dim))
  let precision ← symmetrize precision
  let mean ← need .type mean
  let shift ← precision.matmul mean
  return (precision, shift)

/-- The `_mode` attribute (`StateModel/Gaussian.py:112`). -/
inductive Mode
  | unset | natural | moment
  deriving DecidableEq

/-- The attributes of a `Gaussian` object (`StateModel/Gaussian.py:107-113`); `none` is Python's `None`. -/
structure Gaussian where
  mean_ : Option Arr := none
  cov_ : Option Arr := none
  dim_ : Option ℕ := none
  precision_ : Option Arr := none
  shift_ : Option Arr := none
  mode : Mode := .unset
  chol_ : Option Arr := none

namespace Gaussian

/-- `Gaussian.__init__` (`StateModel/Gaussian.py:95-123`). -/
def init (mean cov precision shift : Option Arr) : Gaussian :=
  let g : Gaussian := {}
  let g := match mean with
    | some mn => { g with mean_ := some mn.atleast1d, cov_ := cov, mode := .moment }
    | none => g
  match shift with
  | some h => { g with precision_ := precision, shift_ := some h.atleast1d, mode := .natural }
  | none => g

/-- `Gaussian(mean, cov)` as used throughout the code. -/
def ofMoment (mean cov : Arr) : Gaussian := init (some mean) (some cov) none none

/-- `Gaussian.from_natural(precision, shift)` (`StateModel/Gaussian.py:281-283`). -/
def ofNatural (precision shift : Arr) : Gaussian := init none none (some precision) (some shift)

/-! The property getters: value read and the object afterwards.  An exception leaves the object as it was, because the
assignments of lines 130, 150, 161, 172 come after the call that raises. -/

/-- `mean` getter (`StateModel/Gaussian.py:127-132`). -/
noncomputable def getMean (env : Env) (g : Gaussian) : Py (Option Arr) × Gaussian :=
  if g.mode = .natural ∧ g.mean_ = none then
    match naturalToMoment env g.precision_ g.shift_ with
    | .ok (mn, cv) => (.ok (some mn), { g with mean_ := some mn, cov_ := some cv })
    | .error e => (.error e, g)
  else (.ok g.mean_, g)

/-- `cov` getter (`StateModel/Gaussian.py:147-152`). -/
noncomputable def getCov (env : Env) (g : Gaussian) : Py (Option Arr) × Gaussian :=
  if g.mode = .natural ∧ g.cov_ = none then
    match naturalToMoment env g.precision_ g.shift_ with
    | .ok (mn, cv) => (.ok (some cv), { g with mean_ := some mn, cov_ := some cv })
    | .error e => (.error e, g)
  else (.ok g.cov_, g)

/-- `precision` getter (`StateModel/Gaussian.py:158-163`). -/
noncomputable def getPrecision (env : Env) (g : Gaussian) : Py (Option Arr) × Gaussian :=
  if g.mode = .moment ∧ g.precision_ = none then
    match momentToNatural env g.mean_ g.cov_ with
    | .ok (p, h) => (.ok (some p), { g with precision_ := some p, shift_ := some h })
    | .error e => (.error e, g)
  else (.ok g.precision_, g)

/-- `shift` getter (`StateModel/Gaussian.py:169-174`). -/
noncomputable def getShift (env : Env) (g : Gaussian) : Py (Option Arr) × Gaussian :=
  if g.mode = .moment ∧ g.shift_ = none then
    match momentToNatural env g.mean_ g.cov_ with
    | .ok (p, h) => (.ok (some h), { g with precision_ := some p, shift_ := some h })
    | .error e => (.error e, g)
  else (.ok g.shift_, g)

/-- `np.shape(a)[0]` where `a` may be `None` (shape `()`). -/
def npShape0 : Option Arr → Py ℕ
  | some a => a.shape0
  | none => .error .index

/-- `dim` getter (`StateModel/Gaussian.py:138-145`). -/
noncomputable def getDim (env : Env) (g : Gaussian) : Py ℕ × Gaussian :=
  match g.dim_ with
  | some d => (.ok d, g)
  | none =>
    let (r, g') := if g.mode = .natural then getShift env g else getMean env g
    match r with
    | .error e => (.error e, g')
    | .ok a => match npShape0 a with
      | .error e => (.error e, g')
      | .ok d => (.ok d, { g' with dim_ := some d })

/-- `chol_cov` getter (`StateModel/Gaussian.py:180-185`); `cholesky(None)` is a `ValueError` (0-d input of object type). -/
noncomputable def getChol (env : Env) (g : Gaussian) : Py Arr × Gaussian :=
  match g.chol_ with
  | some c => (.ok c, g)
  | none =>
    let (r, g') := getCov env g
    match r with
    | .error e => (.error e, g')
    | .ok none => (.error .value, g')
    | .ok (some cv) => match spCholeskyL cv with
      | .ok c => (.ok c, { g' with chol_ := some c })
      | .error e => (.error e, g')

/-! Setters (`StateModel/Gaussian.py:134-136, 154-156, 165-167, 176-178`): plain assignments. -/

def setMean (g : Gaussian) (a : Option Arr) : Gaussian := { g with mean_ := a }
def setCov (g : Gaussian) (a : Option Arr) : Gaussian := { g with cov_ := a }
def setPrecision (g : Gaussian) (a : Option Arr) : Gaussian := { g with precision_ := a }
def setShift (g : Gaussian) (a : Option Arr) : Gaussian := { g with shift_ := a }

/-! Reads as pure functions.  Property C04 (`Props/Gaussian.lean`) shows that the caches written by the getters can not
be observed through any sequence of reads, so the rest of the model treats Gaussians as immutable values. -/

noncomputable def mean (env : Env) (g : Gaussian) : Py (Option Arr) := (getMean env g).1
noncomputable def cov (env : Env) (g : Gaussian) : Py (Option Arr) := (getCov env g).1
noncomputable def precision (env : Env) (g : Gaussian) : Py (Option Arr) := (getPrecision env g).1
noncomputable def shift (env : Env) (g : Gaussian) : Py (Option Arr) := (getShift env g).1
noncomputable def dim (env : Env) (g : Gaussian) : Py ℕ := (getDim env g).1

/-- `a.mean` used in arithmetic (`None` would raise `TypeError`). -/
noncomputable def meanA (env : Env) (g : Gaussian) : Py Arr := do need .type (← g.mean env)
/-- `a.cov` used in arithmetic. -/
noncomputable def covA (env : Env) (g : Gaussian) : Py Arr := do need .type (← g.cov env)
/-- `a.precision` used in arithmetic. -/
noncomputable def precisionA (env : Env) (g : Gaussian) : Py Arr := do need .type (← g.precision env)
/-- `a.shift` used in arithmetic. -/
noncomputable def shiftA (env : Env) (g : Gaussian) : Py Arr := do need .type (← g.shift env)

/-- `__mul__` (`StateModel/Gaussian.py:190-196`). -/
noncomputable def mul (env : Env) (a b : Gaussian) : Py Gaussian := do
  let pa ← a.precisionA env
  let pb ← b.precisionA env
  let p ← symmetrize (← pa.add pb)
  let ha ← a.shiftA env
  let hb ← b.shiftA env
  let h ← ha.add hb
  return ofNatural p h

/-- `__truediv__` (`StateModel/Gaussian.py:198-210`). -/
noncomputable def truediv (env : Env) (a b : Gaussian) : Py Gaussian := do
  let pa ← a.precisionA env
  let pb ← b.precisionA env
  let p ← pa.sub pb
  let ha ← a.shiftA env
  let hb ← b.shiftA env
  let h ← ha.sub hb
  return ofNatural p h

/-- `__pow__` (`StateModel/Gaussian.py:212-220`). -/
noncomputable def pow (env : Env) (a : Gaussian) (k : ℝ) : Py Gaussian := do
  let p ← a.precisionA env
  let h ← a.shiftA env
  return ofNatural (p.smul k) (h.smul k)

open Classical in
/-- `np.allclose(a, b, rtol, atol)`: `|a-b| <= atol + rtol*|b|` entrywise after broadcasting. -/
noncomputable def allclose (rtol atol : ℝ) (a b : Arr) : Py Bool := do
  let d ← a.zip (fun x y => if |x - y| ≤ atol + rtol * |y| then 1 else 0) b
  return decide (∀ x ∈ d.entries, x = 1)

/-- `__eq__` (`StateModel/Gaussian.py:222-229`); note that `RTOL` is passed for both tolerances. -/
noncomputable def eq (env : Env) (a b : Gaussian) : Py Bool := do
  let ma ← a.meanA env
  let mb ← b.meanA env
  let e1 ← allclose (1 / 1000) (1 / 1000) ma mb
  let ca ← a.covA env
  let cb ← b.covA env
  let e2 ← allclose (1 / 1000) (1 / 1000) ca cb
  return e1 && e2

/-- `squared_error` (`StateModel/Gaussian.py:240-246`): squared Euclidean (Frobenius) norm of `self.mean - x`. -/
noncomputable def squaredError (env : Env) (g : Gaussian) (x : Arr) : Py ℝ := do
  let mn ← g.meanA env
  let d ← mn.sub x
  return (d.entries.map (· ^ 2)).sum

/-- `copy` (`StateModel/Gaussian.py:267-271`), with the reads it performs on the original. -/
noncomputable def copy (env : Env) (g : Gaussian) : Py Gaussian × Gaussian :=
  if g.mode = .natural then
    match getPrecision env g with
    | (.error e, g') => (.error e, g')
    | (.ok p, g') => match getShift env g' with
      | (.error e, g'') => (.error e, g'')
      | (.ok h, g'') => (.ok (init none none p h), g'')
  else
    match getMean env g with
    | (.error e, g') => (.error e, g')
    | (.ok mn, g') => match getCov env g' with
      | (.error e, g'') => (.error e, g'')
      | (.ok cv, g'') => (.ok (init mn cv none none), g'')

/-- `Gaussian.as_factor(dim)` (`StateModel/Gaussian.py:273-279`); `GaussianFactor(dim)` (lines 292-296) is the same. -/
def asFactor (n : ℕ) : Gaussian := ofNatural (.m (0 : Matrix (Fin n) (Fin n) ℝ)) (Arr.zeros n)

/-- `Gaussian.as_marginal(dim)` (`StateModel/Gaussian.py:285-289`). -/
noncomputable def asMarginal (n : ℕ) : Gaussian := ofMoment (Arr.zeros n) ((Arr.eye n).smul LARGE_NUM)

end Gaussian

/-- `validate_covariance(state)` (`Utils/linalg.py:48-50`); `np.linalg.cholesky(None)` is a `LinAlgError`. -/
noncomputable def validateCovariance (env : Env) (g : Gaussian) : Py Unit := do
  match ← g.cov env with
  | none => .error .linAlg
  | some c => npCholesky c

end Verif
