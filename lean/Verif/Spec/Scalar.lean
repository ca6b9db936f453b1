import Verif.Spec.Nodes
import Verif.Spec.Kalman
import Verif.Lemmas.Scalar

/-!
# Moment matching on the line, and a reference filter and smoother for scalar states in plain numbers
-/

namespace Verif

open Matrix

/-- The number `x` as an array of shape `(1, 1)` (if `b`) or `(1,)`. -/
def num (b : Bool) (x : ℝ) : Arr := if b then .m (m1 x) else .v (v1 x)

/-- `g` reads mean `m` (of shape `(1, 1)` if `b`, else `(1,)`) and variance `c`. -/
def Mom1 (env : Env) (g : Gaussian) (b : Bool) (m c : ℝ) : Prop :=
  g.mean env = .ok (some (num b m)) ∧ g.cov env = .ok (some (.m (m1 c)))

/-- A moment matching rule on the line: mean, variance and covariance with the argument, as functions of the mean and variance of the
argument. -/
structure Rule where
  X : ℝ → ℝ → ℝ
  S : ℝ → ℝ → ℝ
  C : ℝ → ℝ → ℝ

/-- The transform applies the rule to the function, whatever the shape of the mean is. -/
def Realises (env : Env) (T : Transform) (f : Func) (τ : Rule) : Prop :=
  ∀ (g : Gaussian) (b : Bool) (m p : ℝ), Mom1 env g b m p → 0 < p →
    T f g = .ok (.v (v1 (τ.X m p)), .m (m1 (τ.S m p)), .m (m1 (τ.C m p)))

/-- The same for states whose mean is a vector of one component, the only ones a filter or smoother meets; the transform may return the
mean as a vector of one component or as a number. -/
def RealisesFlat (env : Env) (T : Transform) (f : Func) (τ : Rule) : Prop :=
  ∀ (g : Gaussian) (m p : ℝ), Mom1 env g false m p → 0 < p →
    ∃ z, IsVec z (v1 (τ.X m p)) ∧ T f g = .ok (z, .m (m1 (τ.S m p)), .m (m1 (τ.C m p)))

/-- The rule is that of the affine function `h x + b`. -/
def Rule.Affine (τ : Rule) (h b : ℝ) : Prop := ∀ m p, 0 < p → τ.X m p = h * m + b ∧ τ.S m p = h ^ 2 * p ∧ τ.C m p = h * p

/-- Variances are nonnegative and the Cauchy-Schwarz inequality holds. -/
def Rule.Schwarz (τ : Rule) : Prop := ∀ m p, 0 < p → 0 ≤ τ.S m p ∧ τ.C m p ^ 2 ≤ p * τ.S m p

/-- The function works on every entry of a one-column array. -/
def OnColumns (f : Func) (F : ℝ → ℝ) : Prop :=
  ∀ (N : ℕ) (X : Matrix (Fin N) (Fin 1) ℝ), f (.m X) = .ok (.m (of fun i (_ : Fin 1) => F (X i 0)))

/-- The unscented rule with the parameters `a`, `b`, `k`: three points `m`, `m ± √(a²(1+k) p)`. -/
noncomputable def unscented (a b k : ℝ) (F : ℝ → ℝ) : Rule :=
  let n := a ^ 2 * (1 + k)
  let w0 := (n - 1) / n
  let c0 := w0 + (1 - a ^ 2 + b)
  let w := 1 / (2 * n)
  let X := fun m p => w0 * F m + w * F (m + √(n * p)) + w * F (m - √(n * p))
  { X := X
    S := fun m p => c0 * (F m - X m p) ^ 2 + w * (F (m + √(n * p)) - X m p) ^ 2 + w * (F (m - √(n * p)) - X m p) ^ 2
    C := fun m p => w * √(n * p) * (F (m + √(n * p)) - X m p) - w * √(n * p) * (F (m - √(n * p)) - X m p) }

/-- The function and the rule of a transform are continuous in mean and variance. -/
structure Rule.Continuous (τ : Rule) : Prop where
  X : ContinuousOn (fun g : ℝ × ℝ => τ.X g.1 g.2) {g | 0 < g.2}
  S : ContinuousOn (fun g : ℝ × ℝ => τ.S g.1 g.2) {g | 0 < g.2}
  C : ContinuousOn (fun g : ℝ × ℝ => τ.C g.1 g.2) {g | 0 < g.2}

/-! ## Expectation propagation on the line in plain numbers -/

/-- A Gaussian factor on the line in natural parameters: precision and shift, and whether the shift has shape `(1, 1)`. -/
@[ext] structure Site where
  sh : Bool
  p : ℝ
  h : ℝ

namespace Site

/-- The product of two factors. -/
instance : Add Site := ⟨fun a b => ⟨a.sh || b.sh, a.p + b.p, a.h + b.h⟩⟩
/-- The quotient of two factors. -/
noncomputable instance : Sub Site := ⟨fun a b => ⟨a.sh || b.sh, a.p - b.p, a.h - b.h⟩⟩
/-- A power of a factor. -/
instance : SMul ℝ Site := ⟨fun k a => ⟨a.sh, k * a.p, k * a.h⟩⟩

/-- The factor with mean `m` and variance `c`. -/
noncomputable def ofMoments (b : Bool) (m c : ℝ) : Site := ⟨b, 1 / c, m / c⟩

/-- The mean read from a factor; a precision below the threshold counts as zero. -/
noncomputable def mean (a : Site) : ℝ := if a.p < 1 / 10 ^ 10 then 0 else a.h / a.p
/-- The variance read from a factor; a precision below the threshold counts as zero. -/
noncomputable def var (a : Site) : ℝ := if a.p < 1 / 10 ^ 10 then 10 ^ 10 else 1 / a.p
/-- Whether the mean read has shape `(1, 1)`. -/
noncomputable def meanSh (a : Site) : Bool := if a.p < 1 / 10 ^ 10 then false else a.sh

end Site

/-- `g` reads the natural parameters `a`. -/
structure NatIs (env : Env) (g : Gaussian) (a : Site) : Prop where
  prec : g.precisionA env = .ok (.m (m1 a.p))
  shift : g.shiftA env = .ok (num a.sh a.h)

/-- `g` reads the natural parameters `a` and the moments that belong to them. -/
structure Is (env : Env) (g : Gaussian) (a : Site) : Prop where
  nat : NatIs env g a
  mom : Mom1 env g a.meanSh a.mean a.var

/-- A scalar state-space model as seen by moment matching rules: noise variances, prior, the rule of every transition and of the
measurement function, the measurements; and the power and the damping of the estimator. -/
structure Chain where
  α : ℝ
  γ : ℝ
  q : ℝ
  r : ℝ
  m0 : ℝ
  p0 : ℝ
  τ : ℕ → Rule
  κ : Rule
  y : ℕ → ℝ

/-- Marginal, forward, measurement and backward factor of a node. -/
structure Vals where
  M : Site
  F : Site
  Y : Site
  B : Site

namespace Chain

variable (c : Chain)

/-- Nothing is degenerate: positive power, noise and prior variance, and all rules satisfy the Cauchy-Schwarz inequality. -/
structure Regular : Prop where
  α : 0 < c.α
  q : 0 < c.q
  r : 0 < c.r
  p0 : 0 < c.p0
  τ : ∀ i, (c.τ i).Schwarz
  κ : c.κ.Schwarz

/-- The nodes as they are built. -/
noncomputable def start : Vals := ⟨⟨false, 1 / 10 ^ 10, 0⟩, ⟨false, 0, 0⟩, ⟨false, 0, 0⟩, ⟨false, 0, 0⟩⟩

/-- Mean and variance of the cavity of a forward update: the prior, or the marginal of the previous node without its backward factor. -/
noncomputable def cavity (V : ℕ → Vals) : ℕ → ℝ × ℝ
  | 0 => (c.m0, c.p0)
  | i + 1 => (((V i).M - (1 / c.α) • (V i).B).mean, ((V i).M - (1 / c.α) • (V i).B).var)

/-- The forward update of node `i`. -/
noncomputable def fwd (i : ℕ) (V : ℕ → Vals) : ℕ → Vals :=
  let v := V i
  let (m, p) := c.cavity V i
  let projected := Site.ofMoments false ((c.τ i).X m p) (((c.τ i).S m p + c.q) / c.α)
  let F := (1 - c.γ) • v.F + c.γ • projected
  Function.update V i { v with F := F, M := v.M + (1 / c.α) • (F - v.F) }

/-- The measurement update of node `i`. -/
noncomputable def meas (i : ℕ) (V : ℕ → Vals) : ℕ → Vals :=
  let v := V i
  let cav := v.M - v.Y
  let w := c.κ.S cav.mean cav.var + c.r / c.α
  let k := c.κ.C cav.mean cav.var / w
  let projected := Site.ofMoments true (cav.mean + k * (c.y i - c.κ.X cav.mean cav.var)) (cav.var - k ^ 2 * w)
  let ratio := projected - v.M
  Function.update V i { v with Y := v.Y + c.γ • ratio, M := v.M + (c.γ / c.α) • ratio }

/-- The state at which the backward update of node `i` aims, given mean and variance of the prediction. -/
noncomputable def target (i : ℕ) (V : ℕ → Vals) (x s : ℝ) : Site :=
  open Classical in
  if c.α = 1 then (V (i + 1)).M
  else Site.ofMoments false x s + c.α • ((V (i + 1)).M - (1 / c.α) • (V (i + 1)).F)

/-- The backward update of node `i` (not the last one). -/
noncomputable def back (i : ℕ) (V : ℕ → Vals) : ℕ → Vals :=
  let v := V i
  let cav := v.M - v.B
  let rule := c.τ (i + 1)
  let x := rule.X cav.mean cav.var
  let s := rule.S cav.mean cav.var + c.q / c.α
  let k := rule.C cav.mean cav.var / s
  let t := c.target i V x s
  let projected := Site.ofMoments (cav.meanSh || t.meanSh) (cav.mean + k * (t.mean - x)) (cav.var + k ^ 2 * (t.var - s))
  let ratio := projected - v.M
  Function.update V i { v with B := v.B + c.γ • ratio, M := v.M + (c.γ / c.α) • ratio }

/-- One update of a chain of `N` nodes. -/
noncomputable def step (N : ℕ) : Upd × ℕ → (ℕ → Vals) → ℕ → Vals
  | (.fwd, i), V => c.fwd i V
  | (.meas, i), V => c.meas i V
  | (.back, i), V => if i + 1 < N then c.back i V else V

/-- A sequence of updates. -/
noncomputable def steps (N : ℕ) (calls : List (Upd × ℕ)) (V : ℕ → Vals) : ℕ → Vals :=
  calls.foldl (fun V k => c.step N k V) V

end Chain

/-- Marginal and factors of the node read as `v`. -/
structure IsNode (env : Env) (nd : Node) (v : Vals) : Prop where
  M : Is env nd.marginal v.M
  F : Is env nd.fwdFactor v.F
  Y : Is env nd.measFactor v.Y
  B : Is env nd.backFactor v.B

/-- The calls of one pass over `N` nodes: forward and measurement update of every node in turn, then the backward updates in reverse
order. -/
def passCalls (N : ℕ) : List (Upd × ℕ) :=
  (List.range N).flatMap (fun i => [(.fwd, i), (.meas, i)]) ++ (List.range N).reverse.map fun i => (.back, i)

/-- Means and variances of the marginals after `k` passes over `N` new nodes. -/
noncomputable def Chain.estimates (c : Chain) (N k i : ℕ) : ℝ × ℝ :=
  let v := (c.steps N (passCalls N))^[k] (fun _ => Chain.start) i
  (v.M.mean, v.M.var)

/-- Parameters `alpha`, `beta`, `kappa` of an unscented transform. -/
structure UTParams where
  a : ℝ
  b : ℝ
  k : ℝ

/-- The points are spread, and the weight of the centre point in covariances is not negative. -/
structure UTParams.Good (P : UTParams) : Prop where
  spread : 0 < P.a ^ 2 * (1 + P.k)
  weight : 0 ≤ (P.a ^ 2 * (1 + P.k) - 1) / (P.a ^ 2 * (1 + P.k)) + (1 - P.a ^ 2 + P.b)

/-- The chain of a scalar system under unscented transforms, with parameters `P` for the transitions and `P'` for the measurements. -/
noncomputable def unscentedChain (P P' : UTParams) (α γ q r m0 p0 : ℝ) (F : ℕ → ℝ → ℝ) (G : ℝ → ℝ) (y : ℕ → ℝ) : Chain :=
  ⟨α, γ, q, r, m0, p0, fun i => unscented P.a P.b P.k (F i), unscented P'.a P'.b P'.k G, y⟩

/-- The estimator, the system model and the `N` measurements are those of the chain, as seen by moment matching rules.  (Scipy does not
warn about `1 × 1` matrices.) -/
structure Models (env : Env) (e : Estimator) (sys : Sys) (ys : List Arr) (N : ℕ) (c : Chain) : Prop where
  calm : ∀ A : Matrix (Fin 1) (Fin 1) ℝ, env.illPos A = false
  power : e.power = c.α
  damping : e.damping = c.γ
  Q : e.Q = some (.m (m1 c.q))
  R : e.R = some (.m (m1 c.r))
  prior : Mom1 env sys.initState false c.m0 c.p0
  trans : ∀ i, i < N → Realises env e.transMap (fun x => sys.transition x (some (i * sys.dt)) (some 0)) (c.τ i)
  meas : Realises env e.measMap (fun x => sys.measurement x none none) c.κ
  two : 2 ≤ N
  length : ys.length = N
  obs : ∀ i y, ys[i]? = some y → IsVec y.squeeze (v1 (c.y i))

/-- The Kalman filter-smoother and the `N` measurements are those of the chain, as seen by moment matching rules. -/
structure ModelsKFS (env : Env) (K : KFS) (ys : List Arr) (N : ℕ) (c : Chain) : Prop where
  Q : K.Q = .m (m1 c.q)
  R : K.R = .m (m1 c.r)
  prior : Mom1 env K.initState false c.m0 c.p0
  trans : ∀ i : ℕ, i < N → RealisesFlat env K.transform (fun x => K.transition x (some (i * K.dt)) none) (c.τ i)
  meas : ∀ i : ℕ, i < N → RealisesFlat env K.measTransform (fun x => K.measurement x (some (i * K.dt)) none) c.κ
  length : ys.length = N
  obs : ∀ i y, ys[i]? = some y → IsVec y.squeeze (v1 (c.y i))

/-! ## The reference filter and smoother -/

namespace Chain

variable (c : Chain) (ε : ℝ)

/-- The precision `ε` (with mean zero) is added to a Gaussian. -/
noncomputable def damp (g : ℝ × ℝ) : ℝ × ℝ := (g.1 / g.2 / (1 / g.2 + ε), 1 / (1 / g.2 + ε))

/-- The prediction of a rule. -/
noncomputable def predict (i : ℕ) (g : ℝ × ℝ) : ℝ × ℝ := ((c.τ i).X g.1 g.2, (c.τ i).S g.1 g.2 + c.q)

/-- The correction of a prediction. -/
noncomputable def correct (i : ℕ) (g : ℝ × ℝ) : ℝ × ℝ :=
  let w := c.κ.S g.1 g.2 + c.r
  let k := c.κ.C g.1 g.2 / w
  (g.1 + k * (c.y i - c.κ.X g.1 g.2), g.2 - k ^ 2 * w)

/-- The smoothing of the state of time `i`, given the smoothed one of time `i + 1`. -/
noncomputable def smooth (i : ℕ) (g next : ℝ × ℝ) : ℝ × ℝ :=
  let s := (c.τ (i + 1)).S g.1 g.2 + c.q
  let k := (c.τ (i + 1)).C g.1 g.2 / s
  (g.1 + k * (next.1 - (c.τ (i + 1)).X g.1 g.2), g.2 + k ^ 2 * (next.2 - s))

/-- Mean and variance of the filter at time `i`, every prediction damped by `ε`. -/
noncomputable def filtered : ℕ → ℝ × ℝ
  | 0 => c.correct 0 (damp ε (c.predict 0 (c.m0, c.p0)))
  | i + 1 => c.correct (i + 1) (damp ε (c.predict (i + 1) (filtered i)))

/-- Mean and variance of the smoother `k` steps before the last of `n + 1` times. -/
noncomputable def smoothedBack (n : ℕ) : ℕ → ℝ × ℝ
  | 0 => c.filtered ε n
  | k + 1 => c.smooth (n - (k + 1)) (c.filtered ε (n - (k + 1))) (smoothedBack n k)

/-- Mean and variance of the smoother at time `i` of `0, …, n`. -/
noncomputable def smoothed (n i : ℕ) : ℝ × ℝ := c.smoothedBack ε n (n - i)

/-- For powers below one: the predictions of the transitions `A i x + b i` are not so vague that the threshold takes them for no
information. -/
def Heard (A : ℕ → ℝ) (n : ℕ) : Prop :=
  ∀ i, i < n → 1 / 10 ^ 10 * (1 - c.α) ≤ 1 / (A (i + 1) ^ 2 * (c.filtered (1 / 10 ^ 10) i).2 + c.q / c.α)

end Chain

end Verif
