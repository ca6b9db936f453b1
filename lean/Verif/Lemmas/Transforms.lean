import Verif.Spec.Transforms
import Verif.Lemmas.GaussOps

/-! Lemmas about the transforms. -/

namespace Verif

open Matrix

/-! ### Unscented transform -/

/-- `1 + n + n` points: a centre and two blocks. -/
theorem sum_ut {n : ℕ} {M : Type} [AddCommMonoid M] (f : Fin (1 + n + n) → M) :
    ∑ i, f i = f (Fin.castAdd n (Fin.castAdd n 0)) + ∑ j, f (Fin.castAdd n (Fin.natAdd 1 j)) +
      ∑ j, f (Fin.natAdd (1 + n) j) := by
  rw [Fin.sum_univ_add, Fin.sum_univ_add]
  simp

theorem ut_init {n : ℕ} {alpha beta kappa : ℝ} {u : UT} (h : UT.init n alpha beta kappa = .ok u) :
    alpha * alpha * (n + kappa) ≠ 0 ∧ u = ⟨n, alpha * alpha * (n + kappa) - n, UT.meanWeights n alpha kappa,
      (UT.wLeft (UT.meanWeights n alpha kappa))ᵀ * Matrix.diagonal (UT.covWeights n alpha beta kappa) *
        UT.wLeft (UT.meanWeights n alpha kappa)⟩ := by
  unfold UT.init at h
  simp only at h
  split at h
  · cases h
  · next h0 =>
    refine ⟨by simpa using h0, ?_⟩
    injection h with h
    rw [← h, half_add_self]
    simp [Matrix.transpose_mul, Matrix.mul_assoc, Matrix.diagonal_transpose]

variable {n : ℕ} {alpha beta kappa : ℝ}

theorem sum_meanWeights (h : alpha * alpha * (n + kappa) ≠ 0) : ∑ i, UT.meanWeights n alpha kappa i = 1 := by
  rw [sum_ut]
  simp only [UT.meanWeights]
  simp
  have h' : (n : ℝ) + kappa ≠ 0 := right_ne_zero_of_mul h
  have h2 : alpha ≠ 0 := left_ne_zero_of_mul (left_ne_zero_of_mul h)
  field_simp
  ring

/-- The weighted second moment about the weighted mean, for two families of points. -/
theorem weighted_form {N a b : ℕ} (wm wc : Fin N → ℝ)
    (X : Matrix (Fin N) (Fin a) ℝ) (Y : Matrix (Fin N) (Fin b) ℝ) (i : Fin a) (j : Fin b) :
    (Xᵀ * ((UT.wLeft wm)ᵀ * Matrix.diagonal wc * UT.wLeft wm) * Y) i j =
      ∑ k, wc k * (X k i - (wm ᵥ* X) i) * (Y k j - (wm ᵥ* Y) j) := by
  have key : ∀ {c : ℕ} (Z : Matrix (Fin N) (Fin c) ℝ), UT.wLeft wm * Z = of fun k l => Z k l - (wm ᵥ* Z) l := by
    intro c Z
    ext k l
    simp only [UT.wLeft, Matrix.mul_apply, sub_mul, Finset.sum_sub_distrib, vecMul, dotProduct]
    congr 1
    rw [← Matrix.mul_apply, Matrix.one_mul]
  have : Xᵀ * ((UT.wLeft wm)ᵀ * Matrix.diagonal wc * UT.wLeft wm) * Y =
      (UT.wLeft wm * X)ᵀ * Matrix.diagonal wc * (UT.wLeft wm * Y) := by
    simp only [Matrix.transpose_mul, Matrix.mul_assoc]
  rw [this, key, key, Matrix.mul_apply]
  refine Finset.sum_congr rfl fun k _ => ?_
  rw [Matrix.mul_diagonal, transpose_apply, of_apply, of_apply]
  ring

/-- The sigma points as a matrix. -/
noncomputable def sigmaMat (μ : Fin n → ℝ) (L : Matrix (Fin n) (Fin n) ℝ) (k : ℝ) :
    Matrix (Fin (1 + n + n)) (Fin n) ℝ :=
  of (Fin.append (Fin.append (fun _ : Fin 1 => μ) fun i j => μ j + k * L i j) fun i j => μ j - k * L i j)

theorem sigmaMat_centre (μ : Fin n → ℝ) (L) (k : ℝ) (i : Fin 1) :
    sigmaMat μ L k (Fin.castAdd n (Fin.castAdd n i)) = μ := by funext j; simp [sigmaMat]
theorem sigmaMat_plus (μ : Fin n → ℝ) (L) (k : ℝ) (i : Fin n) :
    sigmaMat μ L k (Fin.castAdd n (Fin.natAdd 1 i)) = fun j => μ j + k * L i j := by funext j; simp [sigmaMat]
theorem sigmaMat_minus (μ : Fin n → ℝ) (L) (k : ℝ) (i : Fin n) :
    sigmaMat μ L k (Fin.natAdd (1 + n) i) = fun j => μ j - k * L i j := by funext j; simp [sigmaMat]

theorem cholU_congr {A B : Matrix (Fin n) (Fin n) ℝ} (hA : A.PosDef) (hB : B.PosDef) (h : A = B) :
    cholU hA = cholU hB := by subst h; rfl

theorem spCholeskyU_posDef {P : Matrix (Fin n) (Fin n) ℝ} (hP : P.PosDef) :
    spCholeskyU (.m P) = .ok (.m (cholU hP)) := by
  have hup := upperSym_of_symm (posDef_symm hP)
  simp only [spCholeskyU, Arr.atleast2d_m]
  simp [hup, hP]
  exact cholU_congr _ _ hup

@[simp] theorem vstack2_vm {r : ℕ} (f : Fin n → ℝ) (M : Matrix (Fin r) (Fin n) ℝ) :
    (Arr.v f).vstack2 (.m M) = .ok (.m (Matrix.of (Fin.append (fun _ : Fin 1 => f) M))) := by
  simp [Arr.vstack2]; rfl

@[simp] theorem vstack2_mm {r r' : ℕ} (M : Matrix (Fin r) (Fin n) ℝ) (M' : Matrix (Fin r') (Fin n) ℝ) :
    (Arr.m M).vstack2 (.m M') = .ok (.m (Matrix.of (Fin.append M M'))) := by
  simp [Arr.vstack2]

theorem sigmaPoints_ok {u : UT} {μ : Fin n → ℝ} {P : Matrix (Fin n) (Fin n) ℝ} (hP : P.PosDef)
    (hu : 0 ≤ (u.n : ℝ) + u.lam) :
    u.sigmaPoints (some (.v μ)) (some (.m P)) = .ok (.m (sigmaMat μ (cholU hP) (Real.sqrt (u.n + u.lam)))) := by
  simp only [UT.sigmaPoints, if_neg (not_lt.2 hu), need, ok_bind, symmetrize_symm (posDef_symm hP),
    spCholeskyU_posDef hP, tryBare_ok, Arr.smul_m, Arr.add_vm, Arr.sub_vm, vstack2_vm, vstack2_mm]
  rfl

theorem vecMul_sigma (h : alpha * alpha * (n + kappa) ≠ 0) (μ : Fin n → ℝ) (L) (k : ℝ) :
    UT.meanWeights n alpha kappa ᵥ* sigmaMat μ L k = μ := by
  ext j
  simp only [vecMul, dotProduct]
  have hs := sum_meanWeights h
  rw [sum_ut] at hs ⊢
  simp only [sigmaMat_centre, sigmaMat_plus, sigmaMat_minus]
  have e : ∀ i : Fin n, UT.meanWeights n alpha kappa (Fin.castAdd n (Fin.natAdd 1 i)) =
      UT.meanWeights n alpha kappa (Fin.natAdd (1 + n) i) := by
    intro i; simp [UT.meanWeights]
  simp only [e, mul_add, mul_sub, Finset.sum_add_distrib, Finset.sum_sub_distrib] at hs ⊢
  simp only [← Finset.sum_mul]
  linear_combination μ j * hs

/-- Weighted second moments of the sigma points reproduce the covariance. -/
theorem sigma_second (h : 0 < alpha * alpha * (n + kappa)) {P : Matrix (Fin n) (Fin n) ℝ} {L : Matrix (Fin n) (Fin n) ℝ}
    (hL : Lᵀ * L = P) (μ : Fin n → ℝ) (i j : Fin n) :
    ∑ k, UT.covWeights n alpha beta kappa k * (sigmaMat μ L (Real.sqrt (alpha * alpha * (n + kappa))) k i - μ i) *
      (sigmaMat μ L (Real.sqrt (alpha * alpha * (n + kappa))) k j - μ j) = P i j := by
  rw [sum_ut]
  simp only [sigmaMat_centre, sigmaMat_plus, sigmaMat_minus, sub_self, mul_zero, zero_add]
  rw [← hL, Matrix.mul_apply, ← Finset.sum_add_distrib]
  refine Finset.sum_congr rfl fun k _ => ?_
  have e1 : UT.covWeights n alpha beta kappa (Fin.castAdd n (Fin.natAdd 1 k)) = 1 / (2 * (alpha * alpha * (n + kappa))) := by
    simp [UT.covWeights]
  have e2 : UT.covWeights n alpha beta kappa (Fin.natAdd (1 + n) k) = 1 / (2 * (alpha * alpha * (n + kappa))) := by
    simp [UT.covWeights]
  rw [e1, e2, transpose_apply]
  have hs := Real.mul_self_sqrt h.le
  generalize Real.sqrt (alpha * alpha * (n + kappa)) = s at *
  generalize alpha * alpha * (n + kappa) = c at *
  have := h.ne'
  field_simp
  rw [← hs]; ring

/-- The transform once the sigma points and the function values are known. -/
theorem ut_transform_of {env : Env} {u : UT} {state : Gaussian} {func : Func} {d k : ℕ}
    {mean cov : Option Arr} (hm : state.mean env = .ok mean) (hc : state.cov env = .ok cov)
    {σ : Matrix (Fin (1 + u.n + u.n)) (Fin d) ℝ} (hσ : u.sigmaPoints mean cov = .ok (.m σ))
    {Y : Matrix (Fin (1 + u.n + u.n)) (Fin k) ℝ} (hY : func (.m σ) = .ok (.m Y)) :
    u.transform env func state = .ok (.v (u.wm ᵥ* Y),
      .m ((2 : ℝ)⁻¹ • (Yᵀ * u.W * Y + (Yᵀ * u.W * Y)ᵀ)), .m (σᵀ * u.W * Y)) := by
  simp only [UT.transform, hm, hc, hσ, hY, ok_bind, Arr.matmul_vm, Arr.T_m, Arr.matmul_mm, symmetrize_m, py_pure]

theorem quad_sum_psd {N a : ℕ} (w : Fin N → ℝ) (hw : ∀ k, 0 ≤ w k) (Z : Matrix (Fin N) (Fin a) ℝ) :
    (of fun i j => ∑ k, w k * Z k i * Z k j : Matrix (Fin a) (Fin a) ℝ).PosSemidef := by
  rw [posSemidef_iff_real]
  constructor
  · ext i j
    simp only [transpose_apply, of_apply]
    exact Finset.sum_congr rfl fun k _ => by ring
  · intro x
    have : x ⬝ᵥ (of fun i j => ∑ k, w k * Z k i * Z k j : Matrix (Fin a) (Fin a) ℝ) *ᵥ x =
        ∑ k, w k * (∑ i, Z k i * x i) ^ 2 := by
      simp only [dotProduct, mulVec, of_apply, Finset.mul_sum, Finset.sum_mul, sq]
      simp only [Finset.sum_comm (s := (Finset.univ : Finset (Fin a))) (t := (Finset.univ : Finset (Fin N)))]
      refine Finset.sum_congr rfl fun k _ => ?_
      refine Finset.sum_congr rfl fun i _ => Finset.sum_congr rfl fun j _ => ?_
      ring
    rw [this]
    exact Finset.sum_nonneg fun k _ => mul_nonneg (hw k) (sq_nonneg _)

@[simp] theorem symmetrize_s (a : ℝ) : symmetrize (.s a) = .ok (.s a) := by
  simp [symmetrize, Arr.divS, Arr.map]

theorem py_bind_ok {α β : Type} {x : Py α} {f : α → Py β} {b : β} (h : (x >>= f) = .ok b) :
    ∃ a, x = .ok a ∧ f a = .ok b := by
  cases x with
  | error e => cases h
  | ok a => exact ⟨a, rfl, h⟩

/-- Shapes of a successful unscented transform: function values are a vector or a matrix with one entry / row per sigma point. -/
theorem ut_transform_inv {env : Env} {u : UT} {func : Func} {state : Gaussian} {mean cov cross : Arr}
    (h : u.transform env func state = .ok (mean, cov, cross)) :
    (∃ Y : Fin (1 + u.n + u.n) → ℝ, mean = .s (u.wm ⬝ᵥ Y) ∧ cov = .s ((Y ᵥ* u.W) ⬝ᵥ Y)) ∨
    (∃ (k : ℕ) (Y : Matrix (Fin (1 + u.n + u.n)) (Fin k) ℝ), mean = .v (u.wm ᵥ* Y) ∧
      cov = .m ((2 : ℝ)⁻¹ • (Yᵀ * u.W * Y + (Yᵀ * u.W * Y)ᵀ))) := by
  unfold UT.transform at h
  obtain ⟨mn, -, h⟩ := py_bind_ok h
  obtain ⟨cv, -, h⟩ := py_bind_ok h
  obtain ⟨σ, -, h⟩ := py_bind_ok h
  obtain ⟨Y, -, h⟩ := py_bind_ok h
  obtain ⟨m', hm, h⟩ := py_bind_ok h
  obtain ⟨a, ha, h⟩ := py_bind_ok h
  obtain ⟨b, hb, h⟩ := py_bind_ok h
  obtain ⟨c, hc, h⟩ := py_bind_ok h
  obtain ⟨d, -, h⟩ := py_bind_ok h
  obtain ⟨e, -, h⟩ := py_bind_ok h
  simp only [py_pure, Except.ok.injEq, Prod.mk.injEq] at h
  obtain ⟨rfl, rfl, rfl⟩ := h
  cases Y with
  | s y => simp [Arr.matmul] at hm
  | @v n' y =>
    have hn : 1 + u.n + u.n = n' := by
      by_contra hne
      simp [Arr.matmul, hne] at hm
    subst hn
    simp only [Arr.matmul_vv, Except.ok.injEq] at hm
    simp only [Arr.T_v, Arr.matmul_vm, Except.ok.injEq] at ha
    subst ha
    simp only [Arr.matmul_vv, Except.ok.injEq] at hb
    subst hb
    simp only [symmetrize_s, Except.ok.injEq] at hc
    exact .inl ⟨y, hm.symm, hc.symm⟩
  | @m r k Y =>
    have hn : 1 + u.n + u.n = r := by
      by_contra hne
      simp [Arr.matmul, hne] at hm
    subst hn
    simp only [Arr.matmul_vm, Except.ok.injEq] at hm
    simp only [Arr.T_m, Arr.matmul_mm, Except.ok.injEq] at ha
    subst ha
    simp only [Arr.matmul_mm, Except.ok.injEq] at hb
    subst hb
    simp only [symmetrize_m, Except.ok.injEq] at hc
    exact .inr ⟨k, Y, hm.symm, hc.symm⟩

/-! ### Taylor transform -/

section
open Classical

/-- A Jacobian oracle that returns the true derivative where there is one. -/
noncomputable def exactJac : Jac := fun func x =>
  match x with
  | @Arr.v n x =>
    if h : ∃ (k : ℕ) (F : (Fin n → ℝ) → Fin k → ℝ) (F' : (Fin n → ℝ) →L[ℝ] (Fin k → ℝ)), HasFDerivAt F F' x ∧ VecFunc func F then
      .ok ⟨[h.choose, n], fun idx => match idx with
        | [i, j] => if hi : i < h.choose then if hj : j < n then
            h.choose_spec.choose_spec.choose (Pi.single ⟨j, hj⟩ 1) ⟨i, hi⟩ else 0 else 0
        | _ => 0⟩
    else if h : ∃ (k : ℕ) (F : (Fin n → ℝ) → Fin k → ℝ) (F' : (Fin n → ℝ) →L[ℝ] (Fin k → ℝ)), HasFDerivAt F F' x ∧ RowFunc func F then
      .ok ⟨[1, h.choose, n], fun idx => match idx with
        | [_, i, j] => if hi : i < h.choose then if hj : j < n then
            h.choose_spec.choose_spec.choose (Pi.single ⟨j, hj⟩ 1) ⟨i, hi⟩ else 0 else 0
        | _ => 0⟩
    else .error .outOfModel
  | _ => .error .outOfModel

theorem vecFunc_inj {n k k' : ℕ} {func : Func} {F : (Fin n → ℝ) → Fin k → ℝ} {G : (Fin n → ℝ) → Fin k' → ℝ}
    (h : VecFunc func F) (h' : VecFunc func G) : ∃ e : k = k', G = fun x i => F x (Fin.cast e.symm i) := by
  have h0 := (h 0).symm.trans (h' 0)
  simp only [Except.ok.injEq] at h0
  have e : k = k' := by
    have := congrArg Arr.shape h0
    simpa using this
  subst e
  refine ⟨rfl, ?_⟩
  funext x i
  have hx := (h x).symm.trans (h' x)
  simp only [Except.ok.injEq, Arr.v_inj] at hx
  rw [hx]; rfl

theorem rowFunc_inj {n k k' : ℕ} {func : Func} {F : (Fin n → ℝ) → Fin k → ℝ} {G : (Fin n → ℝ) → Fin k' → ℝ}
    (h : RowFunc func F) (h' : RowFunc func G) : ∃ e : k = k', G = fun x i => F x (Fin.cast e.symm i) := by
  have h0 := (h 0).symm.trans (h' 0)
  simp only [Except.ok.injEq] at h0
  have e : k = k' := by
    have := congrArg Arr.shape h0
    simpa using this
  subst e
  refine ⟨rfl, ?_⟩
  funext x i
  have hx := (h x).symm.trans (h' x)
  simp only [Except.ok.injEq, Arr.m_inj] at hx
  have := congrFun (congrFun hx 0) i
  exact this.symm

theorem exactJac_correct : CorrectJac exactJac := by
  intro k n func F F' x hF
  constructor
  · intro hv
    have h : ∃ (k : ℕ) (F : (Fin n → ℝ) → Fin k → ℝ) (F' : (Fin n → ℝ) →L[ℝ] (Fin k → ℝ)),
        HasFDerivAt F F' x ∧ VecFunc func F := ⟨k, F, F', hF, hv⟩
    simp only [exactJac, dif_pos h]
    refine ⟨_, rfl, ?_⟩
    obtain ⟨hD, hG⟩ := h.choose_spec.choose_spec.choose_spec
    generalize h.choose_spec.choose_spec.choose = G' at *
    generalize h.choose_spec.choose = G at *
    generalize h.choose = k' at *
    obtain ⟨rfl, rfl⟩ := vecFunc_inj hv hG
    have := hF.unique hD
    subst this
    refine ⟨rfl, fun i j => ?_⟩
    simp
  · intro hv
    have h0 : ¬ ∃ (k : ℕ) (F : (Fin n → ℝ) → Fin k → ℝ) (F' : (Fin n → ℝ) →L[ℝ] (Fin k → ℝ)),
        HasFDerivAt F F' x ∧ VecFunc func F := by
      rintro ⟨k', G, G', -, hG⟩
      have := (hG 0).symm.trans (hv 0)
      simp at this
    have h : ∃ (k : ℕ) (F : (Fin n → ℝ) → Fin k → ℝ) (F' : (Fin n → ℝ) →L[ℝ] (Fin k → ℝ)),
        HasFDerivAt F F' x ∧ RowFunc func F := ⟨k, F, F', hF, hv⟩
    simp only [exactJac, dif_neg h0, dif_pos h]
    refine ⟨_, rfl, ?_⟩
    obtain ⟨hD, hG⟩ := h.choose_spec.choose_spec.choose_spec
    generalize h.choose_spec.choose_spec.choose = G' at *
    generalize h.choose_spec.choose = G at *
    generalize h.choose = k' at *
    obtain ⟨rfl, rfl⟩ := rowFunc_inj hv hG
    have := hF.unique hD
    subst this
    refine ⟨rfl, fun i j => ?_⟩
    simp

end

theorem hasFDerivAt_affine {k n : ℕ} (A : Matrix (Fin k) (Fin n) ℝ) (b : Fin k → ℝ) (x : Fin n → ℝ) :
    HasFDerivAt (fun x => A *ᵥ x + b) (LinearMap.toContinuousLinearMap A.mulVecLin) x := by
  have h := (LinearMap.toContinuousLinearMap A.mulVecLin).hasFDerivAt (x := x)
  exact h.add_const b

theorem affine_deriv_apply {k n : ℕ} (A : Matrix (Fin k) (Fin n) ℝ) (i : Fin k) (j : Fin n) :
    (LinearMap.toContinuousLinearMap A.mulVecLin) (Pi.single j 1) i = A i j := by
  simp

/-- The Jacobian of a vector-valued function as the code uses it. -/
theorem taylor_of_matrix {env : Env} {jac : Jac} {func : Func} {g : Gaussian} {n k : ℕ} {μ : Fin n → ℝ}
    {P : Matrix (Fin n) (Fin n) ℝ} (hg : HasMoments env g μ P) {t : Tensor} (ht : jac func (.v μ) = .ok t)
    {J : Matrix (Fin k) (Fin n) ℝ}
    (hJ : (if 2 < t.shape.length then t.squeeze else t).toArr = .ok (.m J)) {y : Arr} (hy : func (.v μ) = .ok y) :
    taylorTransform env jac func g = .ok (y.squeeze, .m (J * P * Jᵀ), .m (P * Jᵀ)) := by
  simp only [taylorTransform, hg.meanA, hg.covA, ht, hJ, hy, ok_bind, Arr.matmul_mm, Arr.T_m, py_pure]

theorem toArr_kn {t : Tensor} {k n : ℕ} (h : t.shape = [k, n]) :
    (if 2 < t.shape.length then t.squeeze else t).toArr =
      .ok (.m (of fun (i : Fin k) (j : Fin n) => t.get [i, j])) := by
  rw [if_neg (by simp [h])]
  obtain ⟨sh, gt⟩ := t
  simp only at h
  subst h
  rfl

theorem toArr_1kn {t : Tensor} {k n : ℕ} (h : t.shape = [1, k, n]) (hk : k ≠ 1) (hn : n ≠ 1) :
    (if 2 < t.shape.length then t.squeeze else t).toArr =
      .ok (.m (of fun (i : Fin k) (j : Fin n) => t.get [0, i, j])) := by
  rw [if_pos (by simp [h])]
  obtain ⟨sh, gt⟩ := t
  simp only at h
  subst h
  simp [Tensor.squeeze, Tensor.toArr, hk, hn, Tensor.expand]
  rfl

theorem toArr_11n {t : Tensor} {n : ℕ} (h : t.shape = [1, 1, n]) (hn : n ≠ 1) :
    (if 2 < t.shape.length then t.squeeze else t).toArr = .ok (.v fun j : Fin n => t.get [0, 0, j]) := by
  rw [if_pos (by simp [h])]
  obtain ⟨sh, gt⟩ := t
  simp only at h
  subst h
  simp [Tensor.squeeze, Tensor.toArr, hn, Tensor.expand]

theorem toArr_1k1 {t : Tensor} {k : ℕ} (h : t.shape = [1, k, 1]) :
    (if 2 < t.shape.length then t.squeeze else t).toArr =
      if k = 1 then .ok (.s (t.get [0, 0, 0])) else .ok (.v fun j : Fin k => t.get [0, j, 0]) := by
  rw [if_pos (by simp [h])]
  obtain ⟨sh, gt⟩ := t
  simp only at h
  subst h
  split <;> rename_i hk <;> simp [Tensor.squeeze, Tensor.toArr, hk, Tensor.expand]

/-! ### Monte Carlo transform -/

/-- Centred values. -/
theorem mean_affine {N n : ℕ} (hN : N ≠ 0) (X : Matrix (Fin N) (Fin n) ℝ) (a : Fin n → ℝ) (c : ℝ) :
    (∑ l, ((∑ i, X l i * a i) + c)) / N = (∑ i, a i * ((∑ l, X l i) / N)) + c := by
  have hN' : (N : ℝ) ≠ 0 := Nat.cast_ne_zero.2 hN
  rw [Finset.sum_add_distrib, Finset.sum_comm, add_div]
  congr 1
  · rw [Finset.sum_div]
    refine Finset.sum_congr rfl fun i _ => ?_
    rw [← Finset.sum_mul]; ring
  · simp [hN']

theorem sampleMean_apply {N n : ℕ} (X : Matrix (Fin N) (Fin n) ℝ) (i : Fin n) :
    sampleMean X i = (∑ l, X l i) / N := rfl

theorem sampleCov_apply {N n : ℕ} (X : Matrix (Fin N) (Fin n) ℝ) (i j : Fin n) :
    sampleCov X i j = covEntry (fun l => X l i) (fun l => X l j) := by
  simp only [sampleCov, of_apply, covEntry, sampleMean_apply]
  rw [div_eq_mul_one_div]

/-- Sample covariances are bilinear. -/
theorem covEntry_affine_right {N n : ℕ} (hN : N ≠ 0) (x : Fin N → ℝ) (X : Matrix (Fin N) (Fin n) ℝ) (a : Fin n → ℝ) (c : ℝ) :
    covEntry x (fun l => (∑ i, X l i * a i) + c) = ∑ i, covEntry x (fun l => X l i) * a i := by
  simp only [covEntry, mean_affine hN]
  have : ∀ k, (∑ i, X k i * a i) + c - ((∑ i, a i * ((∑ l, X l i) / N)) + c) =
      ∑ i, (X k i - (∑ l, X l i) / N) * a i := by
    intro k
    simp only [sub_mul, Finset.sum_sub_distrib, mul_comm (a _)]
    ring
  simp only [this, Finset.mul_sum, Finset.sum_mul]
  rw [Finset.sum_comm]
  exact Finset.sum_congr rfl fun i _ => Finset.sum_congr rfl fun k _ => by ring

theorem covEntry_comm {N : ℕ} (x y : Fin N → ℝ) : covEntry x y = covEntry y x := by
  simp only [covEntry]
  congr 1
  exact Finset.sum_congr rfl fun _ _ => by ring

theorem covEntry_psd {N a : ℕ} (hN : 1 < N) (Z : Fin a → Fin N → ℝ) :
    (of fun i j => covEntry (Z i) (Z j) : Matrix (Fin a) (Fin a) ℝ).PosSemidef := by
  have h1 : (0 : ℝ) ≤ 1 / ((N : ℝ) - 1) := by
    have : (1 : ℝ) < N := by exact_mod_cast hN
    apply one_div_nonneg.2; linarith
  have := quad_sum_psd (fun _ : Fin N => 1 / ((N : ℝ) - 1)) (fun _ => h1)
    (of fun k i => Z i k - (∑ l, Z i l) / N)
  convert this using 1
  ext i j
  simp only [of_apply, covEntry, Finset.sum_mul]
  exact Finset.sum_congr rfl fun _ _ => by ring

theorem sample_ok {env : Env} {g : Gaussian} {n : ℕ} {μ : Fin n → ℝ} {P : Matrix (Fin n) (Fin n) ℝ}
    (hg : HasMoments env g μ P) (draw : Draw) (N : ℕ) : g.sample env draw N = .ok (.m (draw N μ P)) := by
  simp [Gaussian.sample, hg.1, hg.2]

/-! ### Numerical Jacobian -/

theorem mapM_ok {α β : Type} {f : α → Py β} {g : α → β} {l : List α} (h : ∀ a ∈ l, f a = .ok (g a)) :
    l.mapM f = .ok (l.map g) := by
  induction l with
  | nil => rfl
  | cons a l ih =>
    rw [List.mapM_cons, h a (by simp), ok_bind, ih fun b hb => h b (by simp [hb])]
    rfl

theorem bump_v {n : ℕ} (x : Fin n → ℝ) (j : Fin n) (e : ℝ) :
    (Arr.v x).bump j e = .v (Function.update x j (x j + e)) := by
  simp only [Arr.bump]
  refine congrArg Arr.v (funext fun k => ?_)
  rcases eq_or_ne k j with rfl | hk
  · simp
  · have : k.val ≠ j.val := fun h => hk (Fin.ext h)
    simp [this, hk]

theorem stack_range {n k : ℕ} (hn : 0 < n) (g : ℕ → Fin k → ℝ) :
    ∃ t, Tensor.stack ((List.range n).map fun j => Arr.v (g j)) = .ok t ∧ t.shape = [n, k] ∧
      ∀ (j : Fin n) (i : Fin k), t.get [j, i] = g j i := by
  obtain ⟨m, rfl⟩ : ∃ m, n = m + 1 := ⟨n - 1, by omega⟩
  rw [List.range_succ_eq_map, List.map_cons]
  simp only [Tensor.stack]
  rw [if_pos (by simp)]
  refine ⟨_, rfl, by simp, fun j i => ?_⟩
  simp only
  rw [← List.map_cons (f := fun j => Arr.v (g j)), ← List.range_succ_eq_map]
  simp [List.getD_eq_getElem?_getD, Arr.entry]
  rw [List.getElem?_range j.2]; rfl

end Verif
