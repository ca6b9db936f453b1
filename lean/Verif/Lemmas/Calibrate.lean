import Verif.Lemmas.Forget
import Mathlib.MeasureTheory.Function.L2Space

/-! Second moments of the errors of filter and smoother on random data. -/

namespace Verif

open Matrix MeasureTheory

section Cross

variable {Ω : Type*} [MeasurableSpace Ω] {p q l : ℕ}

/-- A random vector with finite second moments. -/
def SqInt (ℙ : Measure Ω) (X : Ω → Fin p → ℝ) : Prop := ∀ a, MemLp (fun ω => X ω a) 2 ℙ

/-- The matrix of second moments of two random vectors. -/
noncomputable def cross (ℙ : Measure Ω) (X : Ω → Fin p → ℝ) (Y : Ω → Fin q → ℝ) : Matrix (Fin p) (Fin q) ℝ :=
  of fun a b => ∫ ω, X ω a * Y ω b ∂ℙ

variable {ℙ : Measure Ω} {X X' : Ω → Fin p → ℝ} {Y Y' : Ω → Fin q → ℝ}

theorem SqInt.add (h : SqInt ℙ X) (h' : SqInt ℙ X') : SqInt ℙ fun ω => X ω + X' ω := fun a => (h a).add (h' a)
theorem SqInt.sub (h : SqInt ℙ X) (h' : SqInt ℙ X') : SqInt ℙ fun ω => X ω - X' ω := fun a => (h a).sub (h' a)
theorem SqInt.const [IsFiniteMeasure ℙ] (v : Fin p → ℝ) : SqInt ℙ fun _ => v := fun a => memLp_const (v a)

theorem SqInt.mulVec (h : SqInt ℙ X) (M : Matrix (Fin q) (Fin p) ℝ) : SqInt ℙ fun ω => M *ᵥ X ω := fun a => by
  have : MemLp (fun ω => ∑ j, M a j * X ω j) 2 ℙ := memLp_finsetSum _ fun j _ => (h j).const_mul (M a j)
  exact this

theorem SqInt.mul (hX : SqInt ℙ X) (hY : SqInt ℙ Y) (a : Fin p) (b : Fin q) : Integrable (fun ω => X ω a * Y ω b) ℙ :=
  MemLp.integrable_mul (hX a) (hY b)

theorem cross_comm (X : Ω → Fin p → ℝ) (Y : Ω → Fin q → ℝ) : cross ℙ X Y = (cross ℙ Y X)ᵀ := by
  ext a b; simp only [cross, transpose_apply, of_apply, mul_comm]

theorem cross_add_left (hX : SqInt ℙ X) (hX' : SqInt ℙ X') (hY : SqInt ℙ Y) :
    cross ℙ (fun ω => X ω + X' ω) Y = cross ℙ X Y + cross ℙ X' Y := by
  ext a b
  simp only [cross, of_apply, Matrix.add_apply, Pi.add_apply, add_mul]
  exact integral_add (hX.mul hY a b) (hX'.mul hY a b)

theorem cross_sub_left (hX : SqInt ℙ X) (hX' : SqInt ℙ X') (hY : SqInt ℙ Y) :
    cross ℙ (fun ω => X ω - X' ω) Y = cross ℙ X Y - cross ℙ X' Y := by
  ext a b
  simp only [cross, of_apply, Matrix.sub_apply, Pi.sub_apply, sub_mul]
  exact integral_sub (hX.mul hY a b) (hX'.mul hY a b)

theorem cross_mulVec_left (hX : SqInt ℙ X) (hY : SqInt ℙ Y) (M : Matrix (Fin l) (Fin p) ℝ) :
    cross ℙ (fun ω => M *ᵥ X ω) Y = M * cross ℙ X Y := by
  ext a b
  simp only [cross, of_apply, Matrix.mul_apply, Matrix.mulVec, dotProduct]
  simp only [Finset.sum_mul, mul_assoc]
  rw [integral_finsetSum _ fun j _ => (hX.mul hY j b).const_mul (M a j)]
  exact Finset.sum_congr rfl fun j _ => integral_const_mul _ _

theorem cross_add_right (hX : SqInt ℙ X) (hY : SqInt ℙ Y) (hY' : SqInt ℙ Y') :
    cross ℙ X (fun ω => Y ω + Y' ω) = cross ℙ X Y + cross ℙ X Y' := by
  rw [cross_comm, cross_add_left hY hY' hX, transpose_add, ← cross_comm, ← cross_comm]

theorem cross_sub_right (hX : SqInt ℙ X) (hY : SqInt ℙ Y) (hY' : SqInt ℙ Y') :
    cross ℙ X (fun ω => Y ω - Y' ω) = cross ℙ X Y - cross ℙ X Y' := by
  rw [cross_comm, cross_sub_left hY hY' hX, transpose_sub, ← cross_comm, ← cross_comm]

theorem cross_mulVec_right (hX : SqInt ℙ X) (hY : SqInt ℙ Y) (M : Matrix (Fin l) (Fin q) ℝ) :
    cross ℙ X (fun ω => M *ᵥ Y ω) = cross ℙ X Y * Mᵀ := by
  rw [cross_comm, cross_mulVec_left hY hX M, transpose_mul, ← cross_comm]

/-- The constant one as a random vector. -/
def unit1 : Ω → Fin 1 → ℝ := fun _ _ => 1

/-- A random vector orthogonal to the constant one is orthogonal to all constants. -/
theorem cross_const (v : Fin q → ℝ) (h : cross ℙ X unit1 = 0) : cross ℙ X (fun _ => v) = 0 := by
  ext a b
  have h1 : ∫ ω, X ω a * 1 ∂ℙ = 0 := congrFun (congrFun h a) 0
  simp only [cross, of_apply, Matrix.zero_apply]
  rw [integral_mul_const]
  rw [integral_mul_const] at h1
  rw [show ∫ ω, X ω a ∂ℙ = 0 by simpa using h1, zero_mul]

end Cross

/-! ## Random trajectories of a state space model -/

namespace StateSpace

variable {Ω : Type*} [MeasurableSpace Ω] {n k : ℕ}

/-- Random states and measurements of the model, driven by uncorrelated noises with the covariances of the model; nothing else is
assumed about their distribution. -/
structure Path (L : StateSpace n k) (ℙ : Measure Ω) (x : ℕ → Ω → Fin n → ℝ) (q : ℕ → Ω → Fin n → ℝ) (r : ℕ → Ω → Fin k → ℝ)
    (y : Ω → ℕ → Fin k → ℝ) : Prop where
  state : ∀ i ω, x (i + 1) ω = L.A i *ᵥ x i ω + L.b i + q i ω
  meas : ∀ i ω, y ω i = L.H i *ᵥ x (i + 1) ω + L.c i + r i ω
  sq_x : SqInt ℙ fun ω => x 0 ω - L.m0
  sq_q : ∀ i, SqInt ℙ (q i)
  sq_r : ∀ i, SqInt ℙ (r i)
  mean_x : cross ℙ (fun ω => x 0 ω - L.m0) unit1 = 0
  mean_q : ∀ i, cross ℙ (q i) unit1 = 0
  mean_r : ∀ i, cross ℙ (r i) unit1 = 0
  cov_x : cross ℙ (fun ω => x 0 ω - L.m0) (fun ω => x 0 ω - L.m0) = L.P0
  cov_q : ∀ i, cross ℙ (q i) (q i) = L.Q
  cov_r : ∀ i, cross ℙ (r i) (r i) = L.R
  xq : ∀ i, cross ℙ (q i) (fun ω => x 0 ω - L.m0) = 0
  xr : ∀ i, cross ℙ (r i) (fun ω => x 0 ω - L.m0) = 0
  qq : ∀ i j, i ≠ j → cross ℙ (q i) (q j) = 0
  rr : ∀ i j, i ≠ j → cross ℙ (r i) (r j) = 0
  qr : ∀ i j, cross ℙ (q i) (r j) = 0

theorem filt_cov' (L : StateSpace n k) (y y' : ℕ → Fin k → ℝ) (i : ℕ) : (L.filt y i).2 = (L.filt y' i).2 := filt_cov y L.m0 i

theorem smth_cov' (L : StateSpace n k) (y y' : ℕ → Fin k → ℝ) (d i : ℕ) : (L.smth y i d).2 = (L.smth y' i d).2 := smth_cov y L.m0 d i

/-- Covariance, predicted covariance and gains of the filter and smoother, which do not depend on the measurements. -/
noncomputable def fcov (L : StateSpace n k) (i : ℕ) : Matrix (Fin n) (Fin n) ℝ := (L.filt 0 i).2
noncomputable def pcov (L : StateSpace n k) (i : ℕ) : Matrix (Fin n) (Fin n) ℝ := L.A i * L.fcov i * (L.A i)ᵀ + L.Q
noncomputable def fgain (L : StateSpace n k) (i : ℕ) : Matrix (Fin n) (Fin k) ℝ := gainMat (L.pcov i) (L.H i) L.R
noncomputable def sgain (L : StateSpace n k) (i : ℕ) : Matrix (Fin n) (Fin n) ℝ := gainMat (L.fcov i) (L.A i) L.Q

variable {L : StateSpace n k}

theorem filt_mean (y : ℕ → Fin k → ℝ) (i : ℕ) : (L.filt y (i + 1)).1 = L.A i *ᵥ (L.filt y i).1 + L.b i +
    L.fgain i *ᵥ (y i - (L.H i *ᵥ (L.A i *ᵥ (L.filt y i).1 + L.b i) + L.c i)) := by
  rw [StateSpace.filt]; dsimp only; rw [filt_cov' L y 0]; rfl

theorem fcov_succ (i : ℕ) : L.fcov (i + 1) = condCov (L.pcov i) (L.H i) L.R := rfl

theorem smth_mean (y : ℕ → Fin k → ℝ) (i d : ℕ) : (L.smth y i (d + 1)).1 = L.sgain i *ᵥ (L.smth y (i + 1) d).1 +
    ((L.filt y i).1 - L.sgain i *ᵥ (L.A i *ᵥ (L.filt y i).1 + L.b i)) := by
  rw [StateSpace.smth]; dsimp only; rw [StateSpace.gain, filt_cov' L y 0]; rfl

/-- The errors of the filter, of its prediction, and of the smoother. -/
noncomputable def err (L : StateSpace n k) (x : ℕ → Ω → Fin n → ℝ) (y : Ω → ℕ → Fin k → ℝ) (i : ℕ) (ω : Ω) : Fin n → ℝ :=
  x i ω - (L.filt (y ω) i).1
noncomputable def perr (L : StateSpace n k) (x q : ℕ → Ω → Fin n → ℝ) (y : Ω → ℕ → Fin k → ℝ) (i : ℕ) (ω : Ω) : Fin n → ℝ :=
  L.A i *ᵥ L.err x y i ω + q i ω
noncomputable def serr (L : StateSpace n k) (x : ℕ → Ω → Fin n → ℝ) (y : Ω → ℕ → Fin k → ℝ) (i d : ℕ) (ω : Ω) : Fin n → ℝ :=
  x i ω - (L.smth (y ω) i d).1

namespace Path

variable {ℙ : Measure Ω} {x q : ℕ → Ω → Fin n → ℝ} {r : ℕ → Ω → Fin k → ℝ} {y : Ω → ℕ → Fin k → ℝ}

theorem err_succ (h : L.Path ℙ x q r y) (i : ℕ) :
    L.err x y (i + 1) = fun ω => (1 - L.fgain i * L.H i) *ᵥ L.perr x q y i ω - L.fgain i *ᵥ r i ω := by
  funext ω
  simp only [err, perr]
  rw [filt_mean, h.meas, h.state]
  set m := (L.filt (y ω) i).1
  simp only [mulVec_add, mulVec_sub, sub_mulVec, one_mulVec, ← mulVec_mulVec]
  abel

theorem serr_succ (h : L.Path ℙ x q r y) (i d : ℕ) :
    L.serr x y i (d + 1) = fun ω => (L.err x y i ω - L.sgain i *ᵥ L.perr x q y i ω) + L.sgain i *ᵥ L.serr x y (i + 1) d ω := by
  funext ω
  simp only [err, perr, serr]
  rw [smth_mean, h.state]
  simp only [mulVec_add, mulVec_sub]
  abel

theorem sq_err (h : L.Path ℙ x q r y) : ∀ i, SqInt ℙ (L.err x y i)
  | 0 => h.sq_x
  | i + 1 => by
    rw [h.err_succ]
    exact ((((h.sq_err i).mulVec _).add (h.sq_q i)).mulVec _).sub ((h.sq_r i).mulVec _)

theorem sq_perr (h : L.Path ℙ x q r y) (i : ℕ) : SqInt ℙ (L.perr x q y i) := ((h.sq_err i).mulVec _).add (h.sq_q i)

theorem sq_serr (h : L.Path ℙ x q r y) : ∀ d i, SqInt ℙ (L.serr x y i d)
  | 0, i => h.sq_err i
  | d + 1, i => by
    rw [h.serr_succ]
    exact ((h.sq_err i).sub ((h.sq_perr i).mulVec _)).add ((h.sq_serr d (i + 1)).mulVec _)

section

variable {p : ℕ} {Z : Ω → Fin p → ℝ}

theorem cross_perr (h : L.Path ℙ x q r y) (hZ : SqInt ℙ Z) {i : ℕ} (he : cross ℙ Z (L.err x y i) = 0) (hq : cross ℙ Z (q i) = 0) :
    cross ℙ Z (L.perr x q y i) = 0 := by
  show cross ℙ Z (fun ω => L.A i *ᵥ L.err x y i ω + q i ω) = 0
  rw [cross_add_right hZ ((h.sq_err i).mulVec _) (h.sq_q i), cross_mulVec_right hZ (h.sq_err i), he, hq, Matrix.zero_mul, add_zero]

theorem cross_err_succ (h : L.Path ℙ x q r y) (hZ : SqInt ℙ Z) {i : ℕ} (hp : cross ℙ Z (L.perr x q y i) = 0) (hr : cross ℙ Z (r i) = 0) :
    cross ℙ Z (L.err x y (i + 1)) = 0 := by
  rw [h.err_succ, cross_sub_right hZ ((h.sq_perr i).mulVec _) ((h.sq_r i).mulVec _), cross_mulVec_right hZ (h.sq_perr i),
    cross_mulVec_right hZ (h.sq_r i), hp, hr, Matrix.zero_mul, Matrix.zero_mul, sub_zero]

/-- What is uncorrelated with initial state and past noises is uncorrelated with the error of the filter. -/
theorem cross_err (h : L.Path ℙ x q r y) (hZ : SqInt ℙ Z) (hx : cross ℙ Z (fun ω => x 0 ω - L.m0) = 0) : ∀ i,
    (∀ j < i, cross ℙ Z (q j) = 0) → (∀ j < i, cross ℙ Z (r j) = 0) → cross ℙ Z (L.err x y i) = 0
  | 0, _, _ => hx
  | i + 1, hq, hr => h.cross_err_succ hZ (h.cross_perr hZ (h.cross_err hZ hx i (fun j hj => hq j (by omega)) fun j hj => hr j (by omega))
      (hq i (by omega))) (hr i (by omega))

/-- What is uncorrelated with the error of the filter and with later noises is uncorrelated with the error of the smoother. -/
theorem cross_serr (h : L.Path ℙ x q r y) (hZ : SqInt ℙ Z) : ∀ d i, cross ℙ Z (L.err x y i) = 0 →
    (∀ j ≥ i, cross ℙ Z (q j) = 0) → (∀ j ≥ i, cross ℙ Z (r j) = 0) → cross ℙ Z (L.serr x y i d) = 0
  | 0, i, he, _, _ => he
  | d + 1, i, he, hq, hr => by
    have hp := h.cross_perr hZ he (hq i le_rfl)
    have hs := h.cross_serr hZ d (i + 1) (h.cross_err_succ hZ hp (hr i le_rfl)) (fun j hj => hq j (by omega)) fun j hj => hr j (by omega)
    rw [h.serr_succ, cross_add_right hZ ((h.sq_err i).sub ((h.sq_perr i).mulVec _)) ((h.sq_serr d (i + 1)).mulVec _),
      cross_sub_right hZ (h.sq_err i) ((h.sq_perr i).mulVec _), cross_mulVec_right hZ (h.sq_perr i),
      cross_mulVec_right hZ (h.sq_serr d (i + 1)), he, hp, hs, Matrix.zero_mul, sub_zero, add_zero]

end

theorem q_err (h : L.Path ℙ x q r y) {i j : ℕ} (hij : i ≤ j) : cross ℙ (q j) (L.err x y i) = 0 :=
  h.cross_err (h.sq_q j) (h.xq j) i (fun l hl => h.qq j l (by omega)) fun l _ => h.qr j l

theorem r_err (h : L.Path ℙ x q r y) {i j : ℕ} (hij : i ≤ j) : cross ℙ (r j) (L.err x y i) = 0 :=
  h.cross_err (h.sq_r j) (h.xr j) i (fun l _ => by rw [cross_comm, h.qr l j, transpose_zero]) fun l hl => h.rr j l (by omega)

theorem r_perr (h : L.Path ℙ x q r y) {i j : ℕ} (hij : i ≤ j) : cross ℙ (r j) (L.perr x q y i) = 0 :=
  h.cross_perr (h.sq_r j) (h.r_err hij) (by rw [cross_comm, h.qr i j, transpose_zero])

theorem q_perr (h : L.Path ℙ x q r y) {i j : ℕ} (hij : i < j) : cross ℙ (q j) (L.perr x q y i) = 0 :=
  h.cross_perr (h.sq_q j) (h.q_err hij.le) (h.qq j i hij.ne')

theorem cross_zero_comm {p l : ℕ} {X : Ω → Fin p → ℝ} {Y : Ω → Fin l → ℝ} (h : cross ℙ X Y = 0) : cross ℙ Y X = 0 := by
  rw [cross_comm, h, transpose_zero]

/-- The errors have mean zero. -/
theorem mean_err [IsFiniteMeasure ℙ] (h : L.Path ℙ x q r y) (i : ℕ) : cross ℙ (L.err x y i) unit1 = 0 :=
  cross_zero_comm (h.cross_err (Z := unit1) (SqInt.const _) (cross_zero_comm h.mean_x) i (fun j _ => cross_zero_comm (h.mean_q j))
    fun j _ => cross_zero_comm (h.mean_r j))

theorem mean_serr [IsFiniteMeasure ℙ] (h : L.Path ℙ x q r y) (d i : ℕ) : cross ℙ (L.serr x y i d) unit1 = 0 :=
  cross_zero_comm (h.cross_serr (Z := unit1) (SqInt.const _) d i (cross_zero_comm (h.mean_err i)) (fun j _ => cross_zero_comm (h.mean_q j))
    fun j _ => cross_zero_comm (h.mean_r j))

theorem cov_perr (h : L.Path ℙ x q r y) {i : ℕ} (he : cross ℙ (L.err x y i) (L.err x y i) = L.fcov i) :
    cross ℙ (L.perr x q y i) (L.perr x q y i) = L.pcov i := by
  have hp : L.perr x q y i = fun ω => L.A i *ᵥ L.err x y i ω + q i ω := rfl
  have hs := h.sq_perr i
  have e1 : cross ℙ (L.err x y i) (L.perr x q y i) = L.fcov i * (L.A i)ᵀ := by
    rw [hp, cross_add_right (h.sq_err i) ((h.sq_err i).mulVec _) (h.sq_q i), cross_mulVec_right (h.sq_err i) (h.sq_err i), he,
      cross_zero_comm (h.q_err le_rfl), add_zero]
  have e2 : cross ℙ (q i) (L.perr x q y i) = L.Q := by
    rw [hp, cross_add_right (h.sq_q i) ((h.sq_err i).mulVec _) (h.sq_q i), cross_mulVec_right (h.sq_q i) (h.sq_err i), h.q_err le_rfl,
      Matrix.zero_mul, zero_add, h.cov_q]
  conv_lhs => arg 2; rw [hp]
  rw [cross_add_left ((h.sq_err i).mulVec _) (h.sq_q i) hs, cross_mulVec_left (h.sq_err i) hs, e1, e2, pcov, Matrix.mul_assoc]

theorem err_perr (h : L.Path ℙ x q r y) {i : ℕ} (he : cross ℙ (L.err x y i) (L.err x y i) = L.fcov i) :
    cross ℙ (L.err x y i) (L.perr x q y i) = L.fcov i * (L.A i)ᵀ := by
  have hp : L.perr x q y i = fun ω => L.A i *ᵥ L.err x y i ω + q i ω := rfl
  rw [hp, cross_add_right (h.sq_err i) ((h.sq_err i).mulVec _) (h.sq_q i), cross_mulVec_right (h.sq_err i) (h.sq_err i), he,
    cross_zero_comm (h.q_err le_rfl), add_zero]

end Path

theorem Good.fcov (h : L.Good) (i : ℕ) : (L.fcov i).PosDef := h.filt i
theorem Good.pcov (h : L.Good) (i : ℕ) : (L.pcov i).PosDef := h.pred (y := 0) i

/-- `(I − K H) M Hᵀ = K R`. -/
theorem gain_balance {M : Matrix (Fin n) (Fin n) ℝ} {R : Matrix (Fin k) (Fin k) ℝ} (hM : M.PosDef) (hR : R.PosDef)
    (H : Matrix (Fin k) (Fin n) ℝ) : (1 - gainMat M H R * H) * (M * Hᵀ) = gainMat M H R * R := by
  have hS := innov_posDef hM.posSemidef hR H
  have h1 : gainMat M H R * (H * M * Hᵀ + R) = M * Hᵀ := by
    rw [gainMat, Matrix.mul_assoc, posDef_inv_mul hS, Matrix.mul_one]
  rw [Matrix.sub_mul, Matrix.one_mul]
  conv_lhs => arg 1; rw [← h1]
  simp only [Matrix.mul_add, Matrix.mul_assoc]
  abel

/-- Joseph's form of the conditioned covariance. -/
theorem joseph {M : Matrix (Fin n) (Fin n) ℝ} {R : Matrix (Fin k) (Fin k) ℝ} (hM : M.PosDef) (hR : R.PosDef) (H : Matrix (Fin k) (Fin n) ℝ) :
    (1 - gainMat M H R * H) * M * (1 - gainMat M H R * H)ᵀ + gainMat M H R * R * (gainMat M H R)ᵀ = condCov M H R := by
  have h1 := gain_balance hM hR H
  set K := gainMat M H R with hK
  have h2 : (1 - K * H) * M * (1 - K * H)ᵀ = (1 - K * H) * M - (1 - K * H) * (M * Hᵀ) * Kᵀ := by
    rw [transpose_sub, transpose_one, transpose_mul, Matrix.mul_sub, Matrix.mul_one]
    simp only [Matrix.mul_assoc]
  rw [h2, h1, sub_add_cancel, condCov, Matrix.sub_mul, Matrix.one_mul, transpose_mul, transpose_transpose, posDef_symm hM, hK, gainMat]
  simp only [Matrix.mul_assoc]

namespace Path

variable {ℙ : Measure Ω} {x q : ℕ → Ω → Fin n → ℝ} {r : ℕ → Ω → Fin k → ℝ} {y : Ω → ℕ → Fin k → ℝ}

/-- The second moments of the filter's error are the covariance it reports. -/
theorem cov_err (hL : L.Good) (h : L.Path ℙ x q r y) : ∀ i, cross ℙ (L.err x y i) (L.err x y i) = L.fcov i
  | 0 => h.cov_x
  | i + 1 => by
    have hp := h.cov_perr (cov_err hL h i)
    have hsp := h.sq_perr i
    have hsr := h.sq_r i
    have hrp := h.r_perr (le_refl i)
    have h1 := hsp.mulVec (1 - L.fgain i * L.H i)
    have h2 := hsr.mulVec (L.fgain i)
    rw [h.err_succ, cross_sub_left h1 h2 (h1.sub h2), cross_sub_right h1 h1 h2, cross_sub_right h2 h1 h2,
      cross_mulVec_left hsp h1, cross_mulVec_left hsp h2, cross_mulVec_left hsr h1, cross_mulVec_left hsr h2,
      cross_mulVec_right hsp hsp, cross_mulVec_right hsp hsr, cross_mulVec_right hsr hsp, cross_mulVec_right hsr hsr, hp, hrp,
      cross_zero_comm hrp, h.cov_r, fcov_succ, ← joseph (hL.pcov i) hL.R (L.H i)]
    simp only [Matrix.zero_mul, Matrix.mul_zero, sub_zero, zero_sub, sub_neg_eq_add, Matrix.mul_assoc]
    rfl

/-- The part of the filter's error that later measurements cannot correct. -/
noncomputable def _root_.Verif.StateSpace.rest (L : StateSpace n k) (x q : ℕ → Ω → Fin n → ℝ) (y : Ω → ℕ → Fin k → ℝ) (i : ℕ) (ω : Ω) :
    Fin n → ℝ := L.err x y i ω - L.sgain i *ᵥ L.perr x q y i ω

theorem sq_rest (h : L.Path ℙ x q r y) (i : ℕ) : SqInt ℙ (L.rest x q y i) := (h.sq_err i).sub ((h.sq_perr i).mulVec _)

theorem cross_rest {p : ℕ} {Z : Ω → Fin p → ℝ} (h : L.Path ℙ x q r y) (hZ : SqInt ℙ Z) {i : ℕ} (he : cross ℙ Z (L.err x y i) = 0)
    (hp : cross ℙ Z (L.perr x q y i) = 0) : cross ℙ (L.rest x q y i) Z = 0 := by
  show cross ℙ (fun ω => L.err x y i ω - L.sgain i *ᵥ L.perr x q y i ω) Z = 0
  rw [cross_sub_left (h.sq_err i) ((h.sq_perr i).mulVec _) hZ, cross_mulVec_left (h.sq_perr i) hZ, cross_zero_comm he, cross_zero_comm hp,
    Matrix.mul_zero, sub_zero]

theorem rest_r (h : L.Path ℙ x q r y) {i j : ℕ} (hij : i ≤ j) : cross ℙ (L.rest x q y i) (r j) = 0 :=
  h.cross_rest (h.sq_r j) (h.r_err hij) (h.r_perr hij)

theorem rest_q (h : L.Path ℙ x q r y) {i j : ℕ} (hij : i < j) : cross ℙ (L.rest x q y i) (q j) = 0 :=
  h.cross_rest (h.sq_q j) (h.q_err hij.le) (h.q_perr hij)

theorem rest_perr (hL : L.Good) (h : L.Path ℙ x q r y) (i : ℕ) : cross ℙ (L.rest x q y i) (L.perr x q y i) = 0 := by
  have he := h.cov_err hL i
  have hGM : L.sgain i * L.pcov i = L.fcov i * (L.A i)ᵀ := by
    rw [sgain, gainMat, Matrix.mul_assoc]
    exact (congrArg _ (posDef_inv_mul (hL.pcov i))).trans (Matrix.mul_one _)
  show cross ℙ (fun ω => L.err x y i ω - L.sgain i *ᵥ L.perr x q y i ω) (L.perr x q y i) = 0
  rw [cross_sub_left (h.sq_err i) ((h.sq_perr i).mulVec _) (h.sq_perr i), cross_mulVec_left (h.sq_perr i) (h.sq_perr i), h.err_perr he,
    h.cov_perr he, hGM, sub_self]

theorem rest_rest (hL : L.Good) (h : L.Path ℙ x q r y) (i : ℕ) :
    cross ℙ (L.rest x q y i) (L.rest x q y i) = condCov (L.fcov i) (L.A i) L.Q := by
  have he := h.cov_err hL i
  have hst := h.sq_rest i
  have e : L.rest x q y i = fun ω => L.err x y i ω - L.sgain i *ᵥ L.perr x q y i ω := rfl
  conv_lhs => arg 3; rw [e]
  rw [cross_sub_right hst (h.sq_err i) ((h.sq_perr i).mulVec _), cross_mulVec_right hst (h.sq_perr i), h.rest_perr hL, Matrix.zero_mul,
    sub_zero, e, cross_sub_left (h.sq_err i) ((h.sq_perr i).mulVec _) (h.sq_err i), cross_mulVec_left (h.sq_perr i) (h.sq_err i), he,
    cross_comm, h.err_perr he, condCov]
  rfl

/-- The second moments of the smoother's error are the covariance it reports. -/
theorem cov_serr (hL : L.Good) (h : L.Path ℙ x q r y) : ∀ d i, cross ℙ (L.serr x y i d) (L.serr x y i d) = (L.smth 0 i d).2
  | 0, i => h.cov_err hL i
  | d + 1, i => by
    have hst := h.sq_rest i
    have hts := h.cross_serr hst d (i + 1) (h.cross_err_succ hst (h.rest_perr hL i) (h.rest_r le_rfl)) (fun j hj => h.rest_q hj)
      fun j hj => h.rest_r (by omega)
    have hss := h.sq_serr d (i + 1)
    have ih := cov_serr hL h d (i + 1)
    have e : L.serr x y i (d + 1) = fun ω => L.rest x q y i ω + L.sgain i *ᵥ L.serr x y (i + 1) d ω := h.serr_succ i d
    rw [e, cross_add_left hst (hss.mulVec _) (hst.add (hss.mulVec _)), cross_add_right hst hst (hss.mulVec _),
      cross_add_right (hss.mulVec _) hst (hss.mulVec _), cross_mulVec_left hss hst, cross_mulVec_left hss (hss.mulVec _),
      cross_mulVec_right hst hss, cross_mulVec_right hss hss, h.rest_rest hL, hts, cross_zero_comm hts, ih]
    simp only [Matrix.zero_mul, Matrix.mul_zero, add_zero, zero_add]
    rw [StateSpace.smth, add_comm, Matrix.mul_assoc]
    rfl

/-! ### The errors are uncorrelated with the measurements -/

variable [IsFiniteMeasure ℙ]

theorem sq_state (h : L.Path ℙ x q r y) : ∀ i, SqInt ℙ (x i)
  | 0 => by
    have := h.sq_x.add (SqInt.const (ℙ := ℙ) L.m0)
    simpa using this
  | i + 1 => by
    have e : x (i + 1) = fun ω => L.A i *ᵥ x i ω + L.b i + q i ω := funext (h.state i)
    rw [e]
    exact (((h.sq_state i).mulVec _).add (SqInt.const _)).add (h.sq_q i)

omit [IsFiniteMeasure ℙ] in
theorem meas_eq (h : L.Path ℙ x q r y) (i : ℕ) : (fun ω => y ω i) = fun ω => L.H i *ᵥ x (i + 1) ω + L.c i + r i ω := funext (h.meas i)

theorem sq_meas (h : L.Path ℙ x q r y) (i : ℕ) : SqInt ℙ fun ω => y ω i := by
  rw [h.meas_eq]
  exact (((h.sq_state (i + 1)).mulVec _).add (SqInt.const _)).add (h.sq_r i)

theorem sq_filt (h : L.Path ℙ x q r y) (i : ℕ) : SqInt ℙ fun ω => (L.filt (y ω) i).1 := by
  have := (h.sq_state i).sub (h.sq_err i)
  simpa [err] using this

theorem sq_smth (h : L.Path ℙ x q r y) (d i : ℕ) : SqInt ℙ fun ω => (L.smth (y ω) i d).1 := by
  have := (h.sq_state i).sub (h.sq_serr d i)
  simpa [serr] using this

section

variable {p : ℕ} {Z : Ω → Fin p → ℝ}

/-- What is uncorrelated with constants, a state and the noises after it is uncorrelated with later states. -/
theorem cross_state (h : L.Path ℙ x q r y) (hZ : SqInt ℙ Z) (h1 : cross ℙ Z unit1 = 0) {i : ℕ} (hx : cross ℙ Z (x i) = 0) :
    ∀ j, i ≤ j → (∀ l, i ≤ l → l < j → cross ℙ Z (q l) = 0) → cross ℙ Z (x j) = 0 := by
  intro j hj
  induction j, hj using Nat.le_induction with
  | base => exact fun _ => hx
  | succ j hj ih =>
    intro hq
    have e : x (j + 1) = fun ω => L.A j *ᵥ x j ω + L.b j + q j ω := funext (h.state j)
    rw [e, cross_add_right hZ (((h.sq_state j).mulVec _).add (SqInt.const _)) (h.sq_q j),
      cross_add_right hZ ((h.sq_state j).mulVec _) (SqInt.const _), cross_mulVec_right hZ (h.sq_state j),
      ih fun l hl hl' => hq l hl (by omega), cross_const _ h1, hq j hj (by omega), Matrix.zero_mul, add_zero, add_zero]

theorem cross_meas (h : L.Path ℙ x q r y) (hZ : SqInt ℙ Z) (h1 : cross ℙ Z unit1 = 0) {i : ℕ} (hx : cross ℙ Z (x (i + 1)) = 0)
    (hr : cross ℙ Z (r i) = 0) : cross ℙ Z (fun ω => y ω i) = 0 := by
  rw [h.meas_eq, cross_add_right hZ (((h.sq_state (i + 1)).mulVec _).add (SqInt.const _)) (h.sq_r i),
    cross_add_right hZ ((h.sq_state (i + 1)).mulVec _) (SqInt.const _), cross_mulVec_right hZ (h.sq_state (i + 1)), hx, cross_const _ h1, hr,
    Matrix.zero_mul, add_zero, add_zero]

/-- What is uncorrelated with constants and the measurements is uncorrelated with the estimates. -/
theorem cross_filt (h : L.Path ℙ x q r y) (hZ : SqInt ℙ Z) (h1 : cross ℙ Z unit1 = 0) : ∀ i,
    (∀ j < i, cross ℙ Z (fun ω => y ω j) = 0) → cross ℙ Z (fun ω => (L.filt (y ω) i).1) = 0
  | 0, _ => cross_const L.m0 h1
  | i + 1, hy => by
    have ih := h.cross_filt hZ h1 i fun j hj => hy j (by omega)
    have hm := h.sq_filt i
    have e : (fun ω => (L.filt (y ω) (i + 1)).1) = fun ω => (1 - L.fgain i * L.H i) *ᵥ (L.A i *ᵥ (L.filt (y ω) i).1 + L.b i) +
        L.fgain i *ᵥ (y ω i - L.c i) := by
      funext ω
      rw [filt_mean, sub_mulVec, one_mulVec, ← mulVec_mulVec]
      simp only [mulVec_add, mulVec_sub]
      abel
    have hs1 : SqInt ℙ fun ω => L.A i *ᵥ (L.filt (y ω) i).1 + L.b i := (hm.mulVec _).add (SqInt.const _)
    have hs2 : SqInt ℙ fun ω => y ω i - L.c i := (h.sq_meas i).sub (SqInt.const _)
    rw [e, cross_add_right hZ (hs1.mulVec _) (hs2.mulVec _), cross_mulVec_right hZ hs1, cross_mulVec_right hZ hs2,
      cross_add_right hZ (hm.mulVec _) (SqInt.const _), cross_mulVec_right hZ hm, ih, cross_const _ h1,
      cross_sub_right hZ (h.sq_meas i) (SqInt.const _), hy i (by omega), cross_const _ h1]
    simp

theorem cross_smth (h : L.Path ℙ x q r y) (hZ : SqInt ℙ Z) (h1 : cross ℙ Z unit1 = 0) : ∀ d i,
    (∀ j < i + d, cross ℙ Z (fun ω => y ω j) = 0) → cross ℙ Z (fun ω => (L.smth (y ω) i d).1) = 0
  | 0, i, hy => h.cross_filt hZ h1 i hy
  | d + 1, i, hy => by
    have ih := h.cross_smth hZ h1 d (i + 1) fun j hj => hy j (by omega)
    have if' := h.cross_filt hZ h1 i fun j hj => hy j (by omega)
    have hm := h.sq_filt i
    have hs := h.sq_smth d (i + 1)
    have e : (fun ω => (L.smth (y ω) i (d + 1)).1) = fun ω => L.sgain i *ᵥ (L.smth (y ω) (i + 1) d).1 +
        ((L.filt (y ω) i).1 - L.sgain i *ᵥ (L.A i *ᵥ (L.filt (y ω) i).1 + L.b i)) := by
      funext ω
      exact smth_mean (y ω) i d
    have hs1 : SqInt ℙ fun ω => L.A i *ᵥ (L.filt (y ω) i).1 + L.b i := (hm.mulVec _).add (SqInt.const _)
    rw [e, cross_add_right hZ (hs.mulVec _) (hm.sub (hs1.mulVec _)), cross_mulVec_right hZ hs, ih,
      cross_sub_right hZ hm (hs1.mulVec _), if', cross_mulVec_right hZ hs1, cross_add_right hZ (hm.mulVec _) (SqInt.const _),
      cross_mulVec_right hZ hm, if', cross_const _ h1]
    simp

end

omit [IsFiniteMeasure ℙ] in
theorem pred_state (h : L.Path ℙ x q r y) (i : ℕ) :
    x (i + 1) = fun ω => (L.A i *ᵥ (L.filt (y ω) i).1 + L.b i) + L.perr x q y i ω := by
  funext ω
  simp only [perr, err]
  rw [h.state, mulVec_sub]
  abel

theorem q_meas (h : L.Path ℙ x q r y) {i j : ℕ} (hij : j < i) : cross ℙ (q i) (fun ω => y ω j) = 0 := by
  refine h.cross_meas (h.sq_q i) (h.mean_q i) (h.cross_state (h.sq_q i) (h.mean_q i) (i := 0) ?_ (j + 1) (by omega)
    fun l _ hl => h.qq i l (by omega)) (h.qr i j)
  have e : x 0 = fun ω => (x 0 ω - L.m0) + L.m0 := by funext ω; simp
  rw [e, cross_add_right (h.sq_q i) h.sq_x (SqInt.const _), h.xq, cross_const _ (h.mean_q i), add_zero]

theorem r_meas (h : L.Path ℙ x q r y) {i j : ℕ} (hij : j < i) : cross ℙ (r i) (fun ω => y ω j) = 0 := by
  refine h.cross_meas (h.sq_r i) (h.mean_r i) (h.cross_state (h.sq_r i) (h.mean_r i) (i := 0) ?_ (j + 1) (by omega)
    fun l _ _ => cross_zero_comm (h.qr l i)) (h.rr i j (by omega))
  have e : x 0 = fun ω => (x 0 ω - L.m0) + L.m0 := by funext ω; simp
  rw [e, cross_add_right (h.sq_r i) h.sq_x (SqInt.const _), h.xr, cross_const _ (h.mean_r i), add_zero]

/-- The filter's error is uncorrelated with the measurements used. -/
theorem err_meas (hL : L.Good) (h : L.Path ℙ x q r y) : ∀ i, ∀ j < i, cross ℙ (L.err x y i) (fun ω => y ω j) = 0
  | 0, j, hj => absurd hj (by omega)
  | i + 1, j, hj => by
    have old : ∀ j < i, cross ℙ (L.err x y (i + 1)) (fun ω => y ω j) = 0 := fun j hj => by
      have hy := h.sq_meas j
      exact cross_zero_comm (h.cross_err_succ hy (h.cross_perr hy (cross_zero_comm (err_meas hL h i j hj)) (cross_zero_comm (h.q_meas hj)))
        (cross_zero_comm (h.r_meas hj)))
    rcases (Nat.lt_succ_iff.1 hj).lt_or_eq with hj | rfl
    · exact old j hj
    · have hse := h.sq_err (j + 1)
      have hm := h.sq_filt j
      have hp := h.sq_perr j
      have hr := h.sq_r j
      have em := h.cross_filt hse (h.mean_err (j + 1)) j old
      have e1 : cross ℙ (L.err x y (j + 1)) (L.perr x q y j) = (1 - L.fgain j * L.H j) * L.pcov j := by
        rw [h.err_succ, cross_sub_left (hp.mulVec _) (hr.mulVec _) hp, cross_mulVec_left hp hp, cross_mulVec_left hr hp,
          h.cov_perr (h.cov_err hL j), h.r_perr le_rfl, Matrix.mul_zero, sub_zero]
      have e2 : cross ℙ (L.err x y (j + 1)) (r j) = - (L.fgain j * L.R) := by
        rw [h.err_succ, cross_sub_left (hp.mulVec _) (hr.mulVec _) hr, cross_mulVec_left hp hr, cross_mulVec_left hr hr,
          cross_zero_comm (h.r_perr le_rfl), h.cov_r, Matrix.mul_zero, zero_sub]
      have e3 : cross ℙ (L.err x y (j + 1)) (x (j + 1)) = (1 - L.fgain j * L.H j) * L.pcov j := by
        rw [h.pred_state j, cross_add_right hse ((hm.mulVec _).add (SqInt.const _)) hp, cross_add_right hse (hm.mulVec _) (SqInt.const _),
          cross_mulVec_right hse hm, em, cross_const _ (h.mean_err (j + 1)), e1, Matrix.zero_mul, zero_add, zero_add]
      rw [h.meas_eq, cross_add_right hse (((h.sq_state (j + 1)).mulVec _).add (SqInt.const _)) hr,
        cross_add_right hse ((h.sq_state (j + 1)).mulVec _) (SqInt.const _), cross_mulVec_right hse (h.sq_state (j + 1)), e3, e2,
        cross_const _ (h.mean_err (j + 1)), Matrix.mul_assoc, fgain, gain_balance (hL.pcov j) hL.R, add_zero, add_neg_cancel]

theorem rest_meas (hL : L.Good) (h : L.Path ℙ x q r y) (i j : ℕ) : cross ℙ (L.rest x q y i) (fun ω => y ω j) = 0 := by
  have old : ∀ j < i, cross ℙ (L.rest x q y i) (fun ω => y ω j) = 0 := fun j hj => by
    have hy := h.sq_meas j
    have he := cross_zero_comm (h.err_meas hL i j hj)
    exact h.cross_rest hy he (h.cross_perr hy he (cross_zero_comm (h.q_meas hj)))
  have h1 : cross ℙ (L.rest x q y i) unit1 = 0 := by
    have he := cross_zero_comm (h.mean_err i)
    exact h.cross_rest (Z := unit1) (SqInt.const _) he (h.cross_perr (Z := unit1) (SqInt.const _) he (cross_zero_comm (h.mean_q i)))
  by_cases hj : j < i
  · exact old j hj
  · have ht := h.sq_rest i
    have hm := h.sq_filt i
    have hx : cross ℙ (L.rest x q y i) (x (i + 1)) = 0 := by
      rw [h.pred_state i, cross_add_right ht ((hm.mulVec _).add (SqInt.const _)) (h.sq_perr i),
        cross_add_right ht (hm.mulVec _) (SqInt.const _), cross_mulVec_right ht hm, h.cross_filt ht h1 i old, cross_const _ h1,
        h.rest_perr hL, Matrix.zero_mul, zero_add, zero_add]
    exact h.cross_meas ht h1 (h.cross_state ht h1 hx (j + 1) (by omega) fun l hl _ => h.rest_q (by omega)) (h.rest_r (by omega))

/-- The smoother's error is uncorrelated with all measurements used. -/
theorem serr_meas (hL : L.Good) (h : L.Path ℙ x q r y) : ∀ d i, ∀ j < i + d, cross ℙ (L.serr x y i d) (fun ω => y ω j) = 0
  | 0, i, j, hj => h.err_meas hL i j hj
  | d + 1, i, j, hj => by
    have hy := h.sq_meas j
    have e : L.serr x y i (d + 1) = fun ω => L.rest x q y i ω + L.sgain i *ᵥ L.serr x y (i + 1) d ω := h.serr_succ i d
    rw [e, cross_add_left (h.sq_rest i) ((h.sq_serr d (i + 1)).mulVec _) hy, cross_mulVec_left (h.sq_serr d (i + 1)) hy,
      h.rest_meas hL, serr_meas hL h d (i + 1) j (by omega), Matrix.mul_zero, add_zero]

omit [IsFiniteMeasure ℙ] in
theorem quad_cross {X : Ω → Fin n → ℝ} (hX : SqInt ℙ X) (u : Fin n → ℝ) : quad (cross ℙ X X) u = ∫ ω, (u ⬝ᵥ X ω) ^ 2 ∂ℙ := by
  have h1 := cross_mulVec_left hX (hX.mulVec (of fun (_ : Fin 1) => u)) (of fun (_ : Fin 1) => u)
  rw [cross_mulVec_right hX hX] at h1
  have h2 := congrFun (congrFun h1 0) 0
  rw [cross, of_apply] at h2
  have h3 : ((of fun (_ : Fin 1) => u) * (cross ℙ X X * (of fun (_ : Fin 1) => u)ᵀ)) 0 0 = quad (cross ℙ X X) u := by
    simp only [Matrix.mul_apply, quad, dotProduct, Matrix.mulVec, of_apply, transpose_apply]
  rw [← h3, ← h2]
  refine integral_congr_ae (.of_forall fun ω => ?_)
  show (u ⬝ᵥ X ω) * (u ⬝ᵥ X ω) = _
  ring

/-- No affine function of the measurements has a smaller mean squared error, in any direction. -/
theorem best (hL : L.Good) (h : L.Path ℙ x q r y) (d i : ℕ) (β : Fin n → ℝ) (B : ℕ → Matrix (Fin n) (Fin k) ℝ) (u : Fin n → ℝ) :
    quad (L.smth 0 i d).2 u ≤ ∫ ω, (u ⬝ᵥ (x i ω - (β + ∑ j ∈ Finset.range (i + d), B j *ᵥ y ω j))) ^ 2 ∂ℙ := by
  have hs := h.sq_serr d i
  have h1 := h.mean_serr d i
  have hm := h.sq_smth d i
  have hsum : ∀ N, SqInt ℙ fun ω => ∑ j ∈ Finset.range N, B j *ᵥ y ω j := fun N => by
    induction N with
    | zero => simp only [Finset.range_zero, Finset.sum_empty]; exact SqInt.const _
    | succ N ih => simp only [Finset.sum_range_succ]; exact ih.add ((h.sq_meas N).mulVec _)
  have csum : ∀ N ≤ i + d, cross ℙ (L.serr x y i d) (fun ω => ∑ j ∈ Finset.range N, B j *ᵥ y ω j) = 0 := fun N hN => by
    induction N with
    | zero => simp only [Finset.range_zero, Finset.sum_empty]; exact cross_const _ h1
    | succ N ih =>
      simp only [Finset.sum_range_succ]
      rw [cross_add_right hs (hsum N) ((h.sq_meas N).mulVec _), cross_mulVec_right hs (h.sq_meas N), ih (by omega),
        h.serr_meas hL d i N (by omega), Matrix.zero_mul, add_zero]
  set W : Ω → Fin n → ℝ := fun ω => (L.smth (y ω) i d).1 - (β + ∑ j ∈ Finset.range (i + d), B j *ᵥ y ω j) with hW
  have hWs : SqInt ℙ W := hm.sub ((SqInt.const β).add (hsum _))
  have hsW : cross ℙ (L.serr x y i d) W = 0 := by
    rw [hW, cross_sub_right hs hm ((SqInt.const β).add (hsum _)), h.cross_smth hs h1 d i (h.serr_meas hL d i),
      cross_add_right hs (SqInt.const β) (hsum _), cross_const _ h1, csum _ le_rfl, add_zero, sub_zero]
  have e : (fun ω => x i ω - (β + ∑ j ∈ Finset.range (i + d), B j *ᵥ y ω j)) = fun ω => L.serr x y i d ω + W ω := by
    funext ω; simp only [serr, hW]; abel
  have hX : SqInt ℙ fun ω => x i ω - (β + ∑ j ∈ Finset.range (i + d), B j *ᵥ y ω j) := by rw [e]; exact hs.add hWs
  rw [← quad_cross hX, e, cross_add_left hs hWs (hs.add hWs), cross_add_right hs hs hWs, cross_add_right hWs hs hWs, hsW,
    cross_zero_comm hsW, h.cov_serr hL, add_zero, zero_add, quad_add_mat, quad_cross hWs]
  have : 0 ≤ ∫ ω, (u ⬝ᵥ W ω) ^ 2 ∂ℙ := integral_nonneg fun _ => sq_nonneg _
  linarith

end Path

end StateSpace

end Verif
