import Verif.Model.Kalman
import Mathlib.Analysis.SpecialFunctions.Trigonometric.Basic
import Mathlib.Analysis.SpecialFunctions.Complex.Arg
import Mathlib.Data.Matrix.Block
import Mathlib.LinearAlgebra.Matrix.Kronecker

/-!
# The state-space models in `Systems/`

Floating point literals stand for the decimal numbers written in the source.
-/

namespace Verif

/-! ## Noise (`Systems/DynamicSystem.py:14-27`) -/

/-- The attributes of a `GaussianNoise`; `mean` is missing (`none`) unless the constructor stores it. -/
structure GaussianNoise where
  dimension : ℕ
  cov : Arr
  mean : Option Arr

/-- `GaussianNoise.__init__` (`Systems/DynamicSystem.py:15-24`); `cov` defaults to `np.eye(1)`.  A supplied mean is not stored. -/
def GaussianNoise.init (dimension : ℕ) (cov : Option Arr) (mean : Option Arr) : GaussianNoise :=
  { dimension := dimension
    cov := cov.getD (Arr.eye 1)
    mean := match mean with
      | none => some (Arr.zeros dimension)
      | some _ => none }

/-- The random generator seen from outside: the `i`-th call of `np.random.multivariate_normal`, with mean `μ` and covariance `C` of
dimension `n`, returns `rng i n μ C`. -/
abbrev Rng := ℕ → (n : ℕ) → (Fin n → ℝ) → Matrix (Fin n) (Fin n) ℝ → Fin n → ℝ

/-- The shape checks of `np.random.multivariate_normal(mean, cov)`: `mean` has rank one, `cov` is a square matrix of the same
size, otherwise `ValueError`. -/
def mvnArgs : Arr → Arr → Py (Σ n : ℕ, (Fin n → ℝ) × Matrix (Fin n) (Fin n) ℝ)
  | @Arr.v n μ, @Arr.m r c C =>
    if h : n = r ∧ n = c then .ok ⟨n, μ, C.submatrix (Fin.cast h.1) (Fin.cast h.2)⟩ else .error .value
  | _, _ => .error .value

/-! ## Simulation (`Systems/DynamicSystem.py:106-125`)

Arrays are objects here, because `x += noise` changes the array in place and the caller sees it. -/

/-- What a system function returns: a newly created array, or its argument object itself.  (Views of the argument are left out; the
functions in `Systems/` return results of arithmetic, which are new arrays.) -/
inductive Ret
  | fresh (a : Arr)
  | same

/-- Array objects by reference, and the number of calls of the random generator so far. -/
structure Store where
  get : ℕ → Arr
  size : ℕ
  calls : ℕ

namespace Store

/-- Overwrites the contents of the array object `r`. -/
def set (s : Store) (r : ℕ) (a : Arr) : Store := { s with get := Function.update s.get r a }

/-- A new array object. -/
def alloc (s : Store) (a : Arr) : Store := { s with get := Function.update s.get s.size a, size := s.size + 1 }

end Store

/-- The parts of a `DynamicSystemModel` used by `simulate` (`Systems/DynamicSystem.py:76-90`): `transition(x=x, t=t)` and
`measurement(x=x)` with the remaining arguments at their defaults. -/
structure DynSys where
  transition : Arr → ℝ → Py Ret
  measurement : Arr → Py Ret
  systemNoise : GaussianNoise
  measurementNoise : GaussianNoise
  initState : Gaussian
  dt : ℝ

namespace DynSys

/-- `GaussianNoise.sample()` (`Systems/DynamicSystem.py:26-27`). -/
def sample (rng : Rng) (noise : GaussianNoise) : PyM Store Arr := do
  let mean ← PyM.lift (match noise.mean with
    | some a => .ok a
    | none => .error .attribute)
  let ⟨n, μ, C⟩ ← PyM.lift (mvnArgs mean noise.cov)
  let s ← PyM.get
  PyM.modify fun s => { s with calls := s.calls + 1 }
  return .v (rng s.calls n μ C)

/-- The object returned by a function called with the object `arg`. -/
def result (ret : Py Ret) (arg : ℕ) : PyM Store ℕ := do
  match ← PyM.lift ret with
  | .fresh a =>
    let s ← PyM.get
    PyM.modify fun s => s.alloc a
    return s.size
  | .same => return arg

/-- `x += a`: changes the array object in place; a numpy scalar is replaced by a new object.  Returns the object `x` is bound to
afterwards. -/
def inplaceAdd (x : ℕ) (a : Arr) : PyM Store ℕ := do
  let s ← PyM.get
  let sum ← PyM.lift ((s.get x).iadd a)
  if (s.get x).ndim = 0 then
    PyM.modify fun s => s.alloc sum
    return s.size
  else
    PyM.modify fun s => s.set x sum
    return x

/-- One round of the loop in `_simulate` (`Systems/DynamicSystem.py:112-116`): the yielded pair. -/
def simulateStep (rng : Rng) (sys : DynSys) (x : ℕ) (t : ℝ) : PyM Store (ℕ × ℕ) := do
  let s ← PyM.get
  let x ← result (sys.transition (s.get x) t) x
  let w ← sample rng sys.systemNoise
  let x ← inplaceAdd x w
  let s ← PyM.get
  let y ← result (sys.measurement (s.get x)) x
  let v ← sample rng sys.measurementNoise
  let y ← inplaceAdd y v
  return (x, y)

/-- The generator `_simulate` (`Systems/DynamicSystem.py:111-117`) for the remaining number of steps. -/
def simulateLoop (rng : Rng) (sys : DynSys) : ℕ → ℕ → ℝ → PyM Store (List (ℕ × ℕ))
  | 0, _, _ => return []
  | N + 1, x, t => do
    let (x, y) ← simulateStep rng sys x t
    let rest ← simulateLoop rng sys N x (t + sys.dt)
    return (x, y) :: rest

/-- `a.ravel()`: all entries in row-major order. -/
def ravel : Arr → Arr
  | .s a => .v (n := 1) fun _ => a
  | .v f => .v f
  | @Arr.m r c M => .v (n := r * c) fun i => M (finProdFinEquiv.symm i).1 (finProdFinEquiv.symm i).2

/-- `simulate` (`Systems/DynamicSystem.py:119-125`). -/
noncomputable def simulate (env : Env) (rng : Rng) (sys : DynSys) (N : ℕ) (xZero : Option ℕ) (tZero : ℝ) :
    PyM Store (List (ℕ × ℕ)) := do
  match xZero with
  | some x => simulateLoop rng sys N x tZero
  | none =>
    let mean ← PyM.lift (do need .attribute (← sys.initState.mean env))
    let cov ← PyM.lift (sys.initState.covA env)
    let x0 ← sample rng { dimension := 0, cov := cov, mean := some (ravel mean) }
    let s ← PyM.get
    PyM.modify fun s => s.alloc x0
    simulateLoop rng sys N s.size tZero

end DynSys

/-- `DynamicSystemModel.__init__` (`Systems/DynamicSystem.py:71-90`) as seen by the filters: asserts the dimensions of the noises.
The filters read the noise covariances through `transition_noise.cov` and `measurement_noise.cov`. -/
def Sys.make (systemDim measurementDim : ℕ) (transition measurement : SysFunc) (systemNoise measurementNoise : GaussianNoise)
    (initState : Gaussian) (dt : ℝ) : Py Sys :=
  if systemNoise.dimension = systemDim ∧ measurementNoise.dimension = measurementDim then
    .ok { transition := transition, measurement := measurement, Q := systemNoise.cov, R := measurementNoise.cov,
          initState := initState, dt := dt }
  else .error .assertion

/-- `np.arctan2(y, x)`: the angle of the point `(x, y)` in `(-π, π]` (signed zeros do not exist among the reals). -/
noncomputable def arctan2 (y x : ℝ) : ℝ := Complex.arg ⟨x, y⟩

/-! ## `Systems/UniformNonlinearGrowthModel.py` -/

namespace UNGM

/-- `f` (`Systems/UniformNonlinearGrowthModel.py:7-14`); `t=None` is a `TypeError`. -/
noncomputable def f : SysFunc := fun x t _ =>
  match t with
  | none => .error .type
  | some t => .ok (x.map fun a => 0.5 * a + 25 * a / (1 + a ^ 2) + 8 * Real.cos (1.2 * t))

/-- `h` (`Systems/UniformNonlinearGrowthModel.py:17-23`). -/
noncomputable def h : SysFunc := fun x _ _ => .ok (x.map fun a => a ^ 2 / 20)

/-- The constructor (`Systems/UniformNonlinearGrowthModel.py:31-42`). -/
noncomputable def init : Py Sys :=
  Sys.make 1 1 f h (.init 1 (some ((Arr.eye 1).smul 1)) none) (.init 1 (some ((Arr.eye 1).smul 10)) none)
    (Gaussian.ofMoment (.v (n := 1) fun _ => 0) ((Arr.eye 1).smul 5)) 1

end UNGM

/-! ## `Systems/TestDynamics.py` -/

namespace TestDyn

/-- `f` (`Systems/TestDynamics.py:7-12`); `x % 10` is in `[0, 10)`; `None` in place of a number is a `TypeError`. -/
noncomputable def f : SysFunc := fun x t u =>
  match t, u with
  | some t, some u => .ok (x.map fun a => (a - 10 * ⌊a / 10⌋) + 0.1 * t + 0.01 * u)
  | _, _ => .error .type

/-- `h` (`Systems/TestDynamics.py:15-21`). -/
def h : SysFunc := fun x _ _ => .ok (x.map fun a => a * 100)

/-- The constructor (`Systems/TestDynamics.py:29-40`). -/
noncomputable def init : Py Sys :=
  Sys.make 1 1 f h (.init 1 (some ((Arr.eye 1).smul 0)) none) (.init 1 (some ((Arr.eye 1).smul 0)) none)
    (Gaussian.ofMoment (.v (n := 1) fun _ => 0) ((Arr.eye 1).smul 0.0001)) 1

end TestDyn

/-- Sensor positions `(x, y)`. -/
abbrev Sensor := ℝ × ℝ

/-- The bearings measured by the sensors, one row per row of the two-dimensional array `x`; `ix` and `iy` are the columns holding the
position.  An empty sensor list gives an empty vector, because `np.array([])` has rank one. -/
noncomputable def bearings (ix iy : ℕ) (sensors : List Sensor) (x : Arr) : Py Arr :=
  match x.atleast2d with
  | @Arr.m _ c X =>
    match sensors with
    | [] => .ok (.v (n := 0) fun _ => 0)
    | _ =>
      if h : ix < c ∧ iy < c then
        .ok (.m (c := sensors.length) (Matrix.of fun k s =>
          arctan2 (X k ⟨iy, h.2⟩ - (sensors.get s).2) (X k ⟨ix, h.1⟩ - (sensors.get s).1)))
      else .error .index
  | _ => .error .outOfModel  -- cannot happen

/-! ## `Systems/BearingsOnlyTracking.py` -/

namespace BOT

/-- `Default_Sensor_List` (`Systems/BearingsOnlyTracking.py:11-14`). -/
def defaultSensors : List Sensor := [(-10, 10), (10, 10), (-10, -10), (10, -10)]

/-- `f_t` (`Systems/BearingsOnlyTracking.py:22-26`). -/
def F (dt : ℝ) : Matrix (Fin 4) (Fin 4) ℝ := !![1, 0, dt, 0; 0, 1, 0, dt; 0, 0, 1, 0; 0, 0, 0, 1]

/-- `f` (`Systems/BearingsOnlyTracking.py:16-31`): `einsum('ij, kj->ki', f_t, x)`.  (`einsum` stretches axes of length one: a single
column is outside the model.) -/
def f (dt : ℝ) : SysFunc := fun x _ _ =>
  match x.atleast2d with
  | @Arr.m _ c X =>
    if h : c = 4 then .ok (.m (X.submatrix id (Fin.cast h.symm) * (F dt).transpose))
    else if c = 1 then .error .outOfModel else .error .value
  | _ => .error .outOfModel  -- cannot happen

/-- `h` (`Systems/BearingsOnlyTracking.py:34-42`); iterating over `None` is a `TypeError`. -/
noncomputable def h (sensors : Option (List Sensor)) : SysFunc := fun x _ _ =>
  match sensors with
  | none => .error .type
  | some l => bearings 0 1 l x

/-- `system_noise_cov` (`Systems/BearingsOnlyTracking.py:72-76`). -/
noncomputable def Q (dt q : ℝ) : Matrix (Fin 4) (Fin 4) ℝ :=
  q • !![dt ^ 3 / 3, 0, dt ^ 2 / 2, 0; 0, dt ^ 3 / 3, 0, dt ^ 2 / 2; dt ^ 2 / 2, 0, dt, 0; 0, dt ^ 2 / 2, 0, dt]

/-- The constructor (`Systems/BearingsOnlyTracking.py:60-89`).  The time step is not passed on to `DynamicSystemModel`, whose `dt`
stays 1. -/
noncomputable def init (q r : ℝ) (sensors : Option (List Sensor)) (dt : ℝ) : Py Sys :=
  let measDim := (sensors.getD defaultSensors).length
  Sys.make 4 measDim (f dt) (h sensors) (.init 4 (some (.m (Q dt q))) none)
    (.init measDim (some ((Arr.eye measDim).smul r)) none)
    (Gaussian.ofMoment (.v ![0, 0, 1, 0]) ((Arr.eye 4).smul 0.1)) 1

end BOT

/-! ## `Systems/BearingOnlyTrackingTurn.py` -/

namespace BOTT

/-- `Default_Sensor_List` (`Systems/BearingOnlyTrackingTurn.py:12-15`). -/
def defaultSensors : List Sensor := [(-20000, 20000), (20000, 20000), (-20000, -20000), (20000, -20000)]

/-- `f_t` for one row with turn rate `w` (`Systems/BearingOnlyTrackingTurn.py:28-33`). -/
noncomputable def F (dt w : ℝ) : Matrix (Fin 5) (Fin 5) ℝ :=
  !![1, Real.sin (w * dt) / w, 0, -(1 - Real.cos (w * dt)) / w, 0;
     0, Real.cos (w * dt), 0, -Real.sin (w * dt), 0;
     0, (1 - Real.cos (w * dt)) / w, 1, Real.sin (w * dt) / w, 0;
     0, Real.sin (w * dt), 0, Real.cos (w * dt), 0;
     0, 0, 0, 0, 1]

open Classical in
/-- `f` (`Systems/BearingOnlyTrackingTurn.py:19-47`): every row `x` becomes `f_t x`.  A zero turn rate divides by zero (the result
holds NaNs): outside the model. -/
noncomputable def f (dt : ℝ) : SysFunc := fun x _ _ =>
  match x.atleast2d with
  | @Arr.m _ c X =>
    if h : c = 5 then
      let X' := X.submatrix id (Fin.cast h.symm)
      if ∀ k, X' k 4 ≠ 0 then .ok (.m (Matrix.of fun k => (F dt (X' k 4)).mulVec (X' k))) else .error .outOfModel
    else if c = 1 then .error .outOfModel else .error .value
  | _ => .error .outOfModel  -- cannot happen

/-- `h` (`Systems/BearingOnlyTrackingTurn.py:50-60`). -/
noncomputable def h (sensors : Option (List Sensor)) : SysFunc := fun x _ _ =>
  match sensors with
  | none => .error .type
  | some l => bearings 0 2 l x

/-- `M` (`Systems/BearingOnlyTrackingTurn.py:85-86`). -/
noncomputable def M (dt : ℝ) : Matrix (Fin 2) (Fin 2) ℝ := !![dt ^ 3 / 3, dt ^ 2 / 2; dt ^ 2 / 2, dt]

/-- `np.kron(np.eye(2), M) * q` (`Systems/BearingOnlyTrackingTurn.py:89`); `np.kron` orders the indices `2 i + j`. -/
noncomputable def kronM (dt q : ℝ) : Matrix (Fin 4) (Fin 4) ℝ :=
  q • (Matrix.kroneckerMap (· * ·) (1 : Matrix (Fin 2) (Fin 2) ℝ) (M dt)).submatrix
    (finProdFinEquiv (m := 2) (n := 2)).symm (finProdFinEquiv (m := 2) (n := 2)).symm

/-- `system_noise_cov` (`Systems/BearingOnlyTrackingTurn.py:88-90`): the identity with the leading block and the last entry
overwritten. -/
noncomputable def Q (dt q0 q1 : ℝ) : Matrix (Fin 5) (Fin 5) ℝ := Matrix.of fun i j =>
  if h : i.val < 4 ∧ j.val < 4 then kronM dt q0 ⟨i, h.1⟩ ⟨j, h.2⟩
  else if i = 4 ∧ j = 4 then dt * q1
  else (1 : Matrix (Fin 5) (Fin 5) ℝ) i j

/-- The constructor (`Systems/BearingOnlyTrackingTurn.py:68-104`) with `R_sigma = [r]`; `np.eye(k) * np.array([r])**2`.  `dt` of the
`DynamicSystemModel` stays 1. -/
noncomputable def init (q0 q1 r : ℝ) (sensors : Option (List Sensor)) (dt : ℝ) : Py Sys :=
  let measDim := (sensors.getD defaultSensors).length
  Sys.make 5 measDim (f dt) (h sensors) (.init 5 (some (.m (Q dt q0 q1))) none)
    (.init measDim (some ((Arr.eye measDim).smul (r ^ 2))) none)
    (Gaussian.ofMoment (.v ![1000, 300, 1000, 0, -(Real.pi / 60)])
      (.m (Matrix.diagonal ![100, 10, 100, 10, 0.0001]))) 1

end BOTT

/-! ## `Systems/L96.py` -/

namespace L96

/-- The column `np.roll(X, k, 1)` takes entry `j` from: `(j - k) mod c`. -/
def rollIdx {c : ℕ} (k : ℤ) (j : Fin c) : Fin c :=
  ⟨(((j : ℤ) - k) % c).toNat, by
    have hc : (0 : ℤ) < c := by exact_mod_cast Nat.lt_of_le_of_lt (Nat.zero_le _) j.isLt
    have h1 := Int.emod_nonneg ((j : ℤ) - k) hc.ne'
    have h2 := Int.emod_lt_of_pos ((j : ℤ) - k) hc
    omega⟩

/-- `np.roll(X, k, 1)`. -/
def roll {r c : ℕ} (k : ℤ) (X : Matrix (Fin r) (Fin c) ℝ) : Matrix (Fin r) (Fin c) ℝ := fun i j => X i (rollIdx k j)

/-- `model` on a matrix (`Systems/L96.py:10`). -/
def drift (F : ℝ) {r c : ℕ} (X : Matrix (Fin r) (Fin c) ℝ) : Matrix (Fin r) (Fin c) ℝ :=
  Matrix.of fun i j => -roll (-1) X i j * (roll (-2) X i j - roll 1 X i j) - X i j + F

/-- `model` (`Systems/L96.py:8-11`). -/
def model (F : ℝ) (x : Arr) : Arr :=
  match x.atleast2d with
  | .m X => .m (drift F X)
  | a => a  -- cannot happen

/-- `f` (`Systems/L96.py:14-23`): `x + …` broadcasts a vector `x` to a row. -/
noncomputable def f (dt F : ℝ) : SysFunc := fun x _ _ => do
  let k1 := model F x
  let k2 := model F (← x.add ((k1.smul dt).map (· / 2)))
  let k3 := model F (← x.add ((k2.smul dt).map (· / 2)))
  let k4 := model F (← x.add (k3.smul dt))
  let sum ← (← (← k1.add (k2.smul 2)).add (k3.smul 2)).add k4
  x.add (sum.smul (1 / 6 * dt))

/-- `h` (`Systems/L96.py:26-28`). -/
def h : SysFunc := fun x _ _ => .ok (x.atleast2d.map (· ^ 2))

/-- The successive states of the spin-up loop (`Systems/L96.py:36-37`): `f` with its defaults `delta_t=0.05, F=8`. -/
noncomputable def spinUp : ℕ → Arr → Py Arr
  | 0, x => .ok x
  | n + 1, x => do spinUp n (← f 0.05 8 x none none)

/-- The start of the spin-up (`Systems/L96.py:32-33`); assigning to entry 0 of an empty array is an `IndexError`. -/
noncomputable def start (dim : ℕ) (F : ℝ) : Py Arr :=
  if dim = 0 then .error .index else .ok (.v (n := dim) fun i => if i.val = 0 then F + 0.01 else F)

/-- `generate_L96_initial_condition` (`Systems/L96.py:31-40`).  The list starts with an array of shape `(dim,)` followed by arrays of
shape `(1, dim)`; for `dim ≥ 2` these do not stack, `np.array` returns an array of objects (numpy < 1.24, as required by
`np.float`) and `x[-1]` is the last state.  For `dim = 1` the outcome depends on numpy internals: outside the model. -/
noncomputable def generate (dim : ℕ) (F : ℝ) : Py Arr := do
  let x0 ← start dim F
  let last ← spinUp 999 x0
  if dim = 1 then .error .outOfModel else return last

/-- `L96.__init__` (`Systems/L96.py:44-74`); `stored` is the array found at `init_cond_path`, if a path is given and the file exists.
Saving the generated initial condition is left out.  `dt` of the `DynamicSystemModel` stays 1. -/
noncomputable def init (q r dt : ℝ) (dim : ℕ) (F : ℝ) (stored : Option Arr) : Py Sys := do
  let x0 ← match stored with
    | some a => .ok a
    | none => generate dim F
  if (← x0.shape0) ≠ dim then .error .assertion
  Sys.make dim dim (f dt F) h (.init dim (some ((Arr.eye dim).smul q)) none) (.init dim (some ((Arr.eye dim).smul r)) none)
    (Gaussian.ofMoment x0 (Arr.eye dim)) 1

end L96

end Verif
