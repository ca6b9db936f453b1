import Verif.Lemmas.Transforms
import Mathlib.Analysis.Calculus.Deriv.Pow
import Mathlib.Analysis.Calculus.Deriv.Mul
import Mathlib.Analysis.Calculus.Deriv.Add

/-!
# Properties of the moment matching transforms (C14 – C19)
-/

namespace Verif

open Matrix

/-! ## C14 -/

/-- **C14.** The constructor succeeds exactly when `alpha² (dim + kappa) ≠ 0`; then there are `2 dim + 1` weights, they
sum to one, and the covariance weight matrix is symmetric and annihilates constants. -/
theorem C14_unscented_weights (n : ℕ) (alpha beta kappa : ℝ) :
    (alpha ^ 2 * (n + kappa) = 0 → UT.init n alpha beta kappa = .error .zeroDivision) ∧
    (alpha ^ 2 * (n + kappa) ≠ 0 → ∃ u, UT.init n alpha beta kappa = .ok u ∧ 1 + u.n + u.n = 2 * n + 1 ∧
      ∑ i, u.wm i = 1 ∧ u.Wᵀ = u.W ∧ u.W *ᵥ (fun _ => 1) = 0) := by
  constructor
  · intro h
    simp only [UT.init]
    rw [if_pos]
    rw [← h]; ring
  · intro h
    have h0 : alpha * alpha * (n + kappa) ≠ 0 := by rwa [← sq]
    have h1 : ∃ u, UT.init n alpha beta kappa = .ok u := by
      simp only [UT.init]
      rw [if_neg]
      · exact ⟨_, rfl⟩
      · intro h2; apply h0; linarith
    obtain ⟨u, hu⟩ := h1
    refine ⟨u, hu, ?_⟩
    obtain ⟨-, rfl⟩ := ut_init hu
    have hs := sum_meanWeights h0
    refine ⟨by simp only; ring, hs, ?_, ?_⟩
    · simp [Matrix.transpose_mul, Matrix.mul_assoc, Matrix.diagonal_transpose]
    · simp only
      rw [← Matrix.mulVec_mulVec]
      have : UT.wLeft (UT.meanWeights n alpha kappa) *ᵥ (fun _ => 1) = 0 := by
        ext i
        simp [UT.wLeft, mulVec, dotProduct, Finset.sum_sub_distrib, hs, Matrix.one_apply]
      rw [this, mulVec_zero]

/-- Default parameters (`alpha = 1, beta = 2, kappa = 1`) in dimension 3. -/
example : ∃ u, UT.init 3 1 2 1 = .ok u ∧ ∑ i, u.wm i = 1 := by
  obtain ⟨u, h, -, h2, -⟩ := (C14_unscented_weights 3 1 2 1).2 (by norm_num)
  exact ⟨u, h, h2⟩

/-! ## C15 -/

/-- **C15.** The unscented transform is exact for affine functions. -/
theorem C15_unscented_exact_affine {env : Env} {n k : ℕ} {alpha beta kappa : ℝ} {u : UT}
    (hu : UT.init n alpha beta kappa = .ok u) (hpos : 0 < alpha ^ 2 * (n + kappa))
    {g : Gaussian} {μ : Fin n → ℝ} {P : Matrix (Fin n) (Fin n) ℝ} (hg : HasMoments env g μ P) (hP : P.PosDef)
    {func : Func} {A : Matrix (Fin k) (Fin n) ℝ} {b : Fin k → ℝ} (hf : AffineRows func A b) :
    u.transform env func g = .ok (.v (A *ᵥ μ + b), .m (A * P * Aᵀ), .m (P * Aᵀ)) := by
  obtain ⟨h0, rfl⟩ := ut_init hu
  have hpos' : 0 < alpha * alpha * (n + kappa) := by rwa [← sq]
  have hk : ((n : ℝ) + (alpha * alpha * (n + kappa) - n)) = alpha * alpha * (n + kappa) := by ring
  have hσ := sigmaPoints_ok (u := ⟨n, alpha * alpha * (n + kappa) - n, UT.meanWeights n alpha kappa,
      (UT.wLeft (UT.meanWeights n alpha kappa))ᵀ * Matrix.diagonal (UT.covWeights n alpha beta kappa) *
        UT.wLeft (UT.meanWeights n alpha kappa)⟩) (μ := μ) hP (by simp only; rw [hk]; exact hpos'.le)
  simp only [hk] at hσ
  rw [ut_transform_of hg.1 hg.2 hσ (hf _ _)]
  set σ := sigmaMat μ (cholU hP) (Real.sqrt (alpha * alpha * (n + kappa))) with hσdef
  set wm := UT.meanWeights n alpha kappa with hwm
  set wc := UT.covWeights n alpha beta kappa with hwc
  set Y : Matrix (Fin (1 + n + n)) (Fin k) ℝ := σ * Aᵀ + of fun _ j => b j with hYd
  have hYa : ∀ l j, Y l j = (∑ i, σ l i * A j i) + b j := fun l j => by
    simp [hYd, Matrix.mul_apply]
  have hmean : wm ᵥ* σ = μ := vecMul_sigma h0 _ _ _
  have hY : wm ᵥ* Y = A *ᵥ μ + b := by
    ext j
    simp only [vecMul, dotProduct, hYa, Pi.add_apply, mul_add, Finset.sum_add_distrib, ← Finset.sum_mul]
    rw [sum_meanWeights h0, one_mul]
    congr 1
    rw [← hmean]
    simp only [mulVec, dotProduct, vecMul, Finset.mul_sum]
    rw [Finset.sum_comm]
    exact Finset.sum_congr rfl fun i _ => Finset.sum_congr rfl fun l _ => by ring
  have hL := (cholU_spec hP).mul_eq
  have hsec := fun i j => sigma_second (beta := beta) hpos' hL μ i j
  have hd : ∀ (l : Fin (1 + n + n)) (j : Fin k),
      Y l j - (A *ᵥ μ + b) j =
        ∑ i, A j i * (σ l i - μ i) := by
    intro l j
    simp only [hYa, Pi.add_apply, mulVec, dotProduct, sub_mul, mul_comm (A _ _), Finset.sum_sub_distrib]
    ring
  have hcross : σᵀ * ((UT.wLeft wm)ᵀ * diagonal wc * UT.wLeft wm) *
      Y = P * Aᵀ := by
    ext i j
    rw [weighted_form, hmean, hY]
    simp only [hd, Finset.mul_sum, Matrix.mul_apply, transpose_apply]
    rw [Finset.sum_comm]
    refine Finset.sum_congr rfl fun l _ => ?_
    rw [← hsec i l, Finset.sum_mul]
    exact Finset.sum_congr rfl fun _ _ => by ring
  have hcov : Yᵀ *
      ((UT.wLeft wm)ᵀ * diagonal wc * UT.wLeft wm) *
      Y = A * P * Aᵀ := by
    rw [Matrix.mul_assoc A]
    ext i j
    rw [weighted_form, hY, Matrix.mul_apply]
    simp only [← hcross, weighted_form, hmean, hY]
    simp only [Finset.mul_sum]
    rw [Finset.sum_comm]
    refine Finset.sum_congr rfl fun l _ => ?_
    rw [hd l i, Finset.mul_sum, Finset.sum_mul]
    exact Finset.sum_congr rfl fun _ _ => by ring
  have hsym : (A * P * Aᵀ)ᵀ = A * P * Aᵀ := by
    rw [Matrix.transpose_mul, Matrix.transpose_mul, transpose_transpose, posDef_symm hP, Matrix.mul_assoc]
  congr 2
  · exact congrArg Arr.v hY
  · congr 1
    · refine congrArg Arr.m ?_
      refine (congrArg (fun M => (2 : ℝ)⁻¹ • (M + Mᵀ)) hcov).trans ?_
      exact half_add_self hsym
    · exact congrArg Arr.m hcross

/-- A two-dimensional case with a rank-one affine map. -/
example : ∃ u, UT.init 2 1 2 1 = .ok u ∧
    u.transform calmEnv (affineFunc !![1, 2; 0, 0] ![5, 6]) (Gaussian.ofMoment (.v ![1, 1]) (.m (diagonal ![2, 3]))) =
      .ok (.v ![8, 6], .m !![14, 0; 0, 0], .m !![2, 0; 6, 0]) := by
  obtain ⟨u, h, -⟩ := (C14_unscented_weights 2 1 2 1).2 (by norm_num)
  refine ⟨u, h, ?_⟩
  rw [C15_unscented_exact_affine h (by norm_num) (hasMoments_ofMoment _ _ _) posDef_two (affineFunc_rows _ _)]
  congr 2
  · congr 1; ext i; fin_cases i <;> norm_num [mulVec, dotProduct, Fin.sum_univ_two]
  · congr 2 <;> ext i j <;> fin_cases i <;> fin_cases j <;>
      norm_num [Matrix.mul_apply, Fin.sum_univ_two, diagonal_apply, vecMul, dotProduct]

/-! ## C16 -/

/-- **C16.** Whatever the function and the state, if the unscented transform returns, its covariance is symmetric, and positive
semidefinite as soon as no covariance weight is negative. -/
theorem C16_unscented_cov_symmetric_psd {env : Env} {n : ℕ} {alpha beta kappa : ℝ} {u : UT}
    (hu : UT.init n alpha beta kappa = .ok u) (func : Func) (state : Gaussian) {mean cov cross : Arr}
    (h : u.transform env func state = .ok (mean, cov, cross)) :
    cov.T = cov ∧
    (0 < alpha ^ 2 * (n + kappa) →
      0 ≤ (alpha ^ 2 * (n + kappa) - n) / (alpha ^ 2 * (n + kappa)) + 1 - alpha ^ 2 + beta → ArrPSD cov) := by
  obtain ⟨h0, rfl⟩ := ut_init hu
  have hc : ∀ hp : 0 < alpha ^ 2 * (n + kappa),
      0 ≤ (alpha ^ 2 * (n + kappa) - n) / (alpha ^ 2 * (n + kappa)) + 1 - alpha ^ 2 + beta →
      ∀ i, 0 ≤ UT.covWeights n alpha beta kappa i := by
    intro hp hw i
    have e : (n : ℝ) + (alpha * alpha * (n + kappa) - n) = alpha ^ 2 * (n + kappa) := by ring
    simp only [UT.covWeights, e]
    split
    · refine hw.trans (le_of_eq ?_); ring
    · positivity
  rcases ut_transform_inv h with ⟨Y, -, rfl⟩ | ⟨k, Y, -, rfl⟩
  · refine ⟨rfl, fun hp hw => ?_⟩
    have hpsd := quad_sum_psd _ (hc hp hw) (of fun l (_ : Fin 1) => Y l - UT.meanWeights n alpha kappa ⬝ᵥ Y)
    have hwf := weighted_form (UT.meanWeights n alpha kappa) (UT.covWeights n alpha beta kappa)
      (of fun l (_ : Fin 1) => Y l) (of fun l (_ : Fin 1) => Y l) 0 0
    have := hpsd.diag_nonneg (i := 0)
    refine this.trans (le_of_eq ?_)
    simp only [of_apply]
    have e : ∀ (A : Matrix (Fin (1 + n + n)) (Fin (1 + n + n)) ℝ),
        ((of fun l (_ : Fin 1) => Y l)ᵀ * A * (of fun l (_ : Fin 1) => Y l) : Matrix (Fin 1) (Fin 1) ℝ) 0 0 = (Y ᵥ* A) ⬝ᵥ Y := by
      intro A; simp [Matrix.mul_apply, vecMul, dotProduct]
    rw [e] at hwf
    rw [hwf]
    simp [vecMul, dotProduct]
  · refine ⟨by rw [Arr.T_m, half_add_transpose_symm], fun hp hw => ⟨rfl, ?_⟩⟩
    have hpsd := quad_sum_psd _ (hc hp hw) (of fun l j => Y l j - (UT.meanWeights n alpha kappa ᵥ* Y) j)
    have e : Yᵀ * ((UT.wLeft (UT.meanWeights n alpha kappa))ᵀ * diagonal (UT.covWeights n alpha beta kappa) *
        UT.wLeft (UT.meanWeights n alpha kappa)) * Y =
        of fun i j => ∑ l, UT.covWeights n alpha beta kappa l *
          (of fun l j => Y l j - (UT.meanWeights n alpha kappa ᵥ* Y) j : Matrix _ _ ℝ) l i *
          (of fun l j => Y l j - (UT.meanWeights n alpha kappa ᵥ* Y) j : Matrix _ _ ℝ) l j := by
      ext i j; rw [weighted_form]; rfl
    simp only [e]
    rw [half_add_self (posSemidef_symm hpsd)]
    exact hpsd

/-- The default parameters satisfy the weight condition in every dimension ≥ 1 (here 3). -/
example : (0 : ℝ) < 1 ^ 2 * ((3 : ℕ) + 1) ∧
    (0 : ℝ) ≤ (1 ^ 2 * ((3 : ℕ) + 1) - (3 : ℕ)) / (1 ^ 2 * ((3 : ℕ) + 1)) + 1 - 1 ^ 2 + 2 := by norm_num

/-- With a negative centre weight the unscented "covariance" can be negative: `alpha = 1, beta = 0, kappa = -1/2`, state
`N(0, 2)`, function `x ↦ x²` gives variance `-2`. -/
theorem C16_negative_weight_counterexample (env : Env) :
    ∃ u, UT.init 1 1 0 (-1 / 2) = .ok u ∧
      ∃ mean cross, u.transform env (fun a => .ok (a.map (· ^ 2)))
        (Gaussian.ofMoment (.v ![0]) (.m (diagonal fun _ : Fin 1 => 2))) = .ok (mean, .m !![-2], cross) := by
  obtain ⟨u, hu, -⟩ := (C14_unscented_weights 1 1 0 (-1 / 2)).2 (by norm_num)
  refine ⟨u, hu, ?_⟩
  obtain ⟨h0, rfl⟩ := ut_init hu
  have hP : (diagonal fun _ : Fin 1 => (2 : ℝ)).PosDef := posDef_scalar (by norm_num)
  have hσ := sigmaPoints_ok (u := ⟨1, 1 * 1 * (((1 : ℕ) : ℝ) + -1 / 2) - (1 : ℕ), UT.meanWeights 1 1 (-1 / 2),
      (UT.wLeft (UT.meanWeights 1 1 (-1 / 2)))ᵀ * Matrix.diagonal (UT.covWeights 1 1 0 (-1 / 2)) *
        UT.wLeft (UT.meanWeights 1 1 (-1 / 2))⟩) (μ := ![0]) hP (by norm_num)
  have hm := hasMoments_ofMoment env ![0] (diagonal fun _ : Fin 1 => (2 : ℝ))
  suffices H : ∃ (mean : Arr) (C : Matrix (Fin 1) (Fin 1) ℝ) (cross : Arr), UT.transform env ⟨1, 1 * 1 * (((1 : ℕ) : ℝ) + -1 / 2) - (1 : ℕ), UT.meanWeights 1 1 (-1 / 2),
      (UT.wLeft (UT.meanWeights 1 1 (-1 / 2)))ᵀ * Matrix.diagonal (UT.covWeights 1 1 0 (-1 / 2)) *
        UT.wLeft (UT.meanWeights 1 1 (-1 / 2))⟩ (fun a => .ok (a.map (· ^ 2)))
        (Gaussian.ofMoment (.v ![0]) (.m (diagonal fun _ : Fin 1 => 2))) = .ok (mean, .m C, cross) ∧ C = !![-2] by
    obtain ⟨mean, C, cross, h, rfl⟩ := H
    exact ⟨mean, cross, h⟩
  refine ⟨_, _, _, ut_transform_of (k := 1) hm.1 hm.2 hσ
    (Y := of fun i j => (sigmaMat ![0] (cholU hP) (Real.sqrt ((1 : ℕ) + (1 * 1 * (((1 : ℕ) : ℝ) + -1 / 2) - (1 : ℕ)))) i j) ^ 2)
    rfl, ?_⟩
  have hL : (cholU hP 0 0) ^ 2 = 2 := by
    have := congrFun (congrFun (cholU_spec hP).mul_eq 0) 0
    rw [Matrix.mul_apply] at this
    simp at this
    rw [sq]; linarith
  have hs : (Real.sqrt ((1 : ℕ) + (1 * 1 * (((1 : ℕ) : ℝ) + -1 / 2) - (1 : ℕ)))) ^ 2 = 1 / 2 := by
    rw [Real.sq_sqrt] <;> norm_num
  generalize Real.sqrt ((1 : ℕ) + (1 * 1 * (((1 : ℕ) : ℝ) + -1 / 2) - (1 : ℕ))) = q at *
  ext i j
  fin_cases i; fin_cases j
  rw [Matrix.smul_apply, Matrix.add_apply, transpose_apply, weighted_form]
  simp only [vecMul, dotProduct, sum_ut, sigmaMat_centre, sigmaMat_plus, sigmaMat_minus, of_apply]
  simp [UT.meanWeights, UT.covWeights]
  rw [mul_pow, hs, hL]
  norm_num

/-! ## C17 -/

/-- **C17** (linearisation). For a differentiable function with vector values the Taylor transform returns the function value
at the mean (squeezed), `J P J'` and `P J'`, with `J` the true Jacobian. -/
theorem C17_taylor_linearises {env : Env} {jac : Jac} (hjac : CorrectJac jac) {n k : ℕ} {g : Gaussian} {μ : Fin n → ℝ}
    {P : Matrix (Fin n) (Fin n) ℝ} (hg : HasMoments env g μ P) {func : Func} {F : (Fin n → ℝ) → Fin k → ℝ}
    (hf : VecFunc func F) {F' : (Fin n → ℝ) →L[ℝ] (Fin k → ℝ)} (hF : HasFDerivAt F F' μ) :
    taylorTransform env jac func g =
      .ok ((Arr.v (F μ)).squeeze, .m (jacMat F' * P * (jacMat F')ᵀ), .m (P * (jacMat F')ᵀ)) := by
  obtain ⟨t, ht, hs, he⟩ := (hjac func F F' μ hF).1 hf
  refine taylor_of_matrix hg ht ?_ (hf μ)
  rw [toArr_kn hs]
  congr 2
  ext i j
  exact he i j

/-- **C17** (linearisation, functions returning arrays of shape `(1, k)`), state and output dimension different from one. -/
theorem C17_taylor_linearises_rows {env : Env} {jac : Jac} (hjac : CorrectJac jac) {n k : ℕ} (hn : n ≠ 1) (hk : k ≠ 1)
    {g : Gaussian} {μ : Fin n → ℝ} {P : Matrix (Fin n) (Fin n) ℝ} (hg : HasMoments env g μ P) {func : Func}
    {F : (Fin n → ℝ) → Fin k → ℝ} (hf : RowFunc func F)
    {F' : (Fin n → ℝ) →L[ℝ] (Fin k → ℝ)} (hF : HasFDerivAt F F' μ) :
    taylorTransform env jac func g = .ok (.v (F μ), .m (jacMat F' * P * (jacMat F')ᵀ), .m (P * (jacMat F')ᵀ)) := by
  obtain ⟨t, ht, hs, he⟩ := (hjac func F F' μ hF).2 hf
  have := taylor_of_matrix hg ht (J := jacMat F') (by
    rw [toArr_1kn hs hk hn]
    congr 2
    ext i j
    exact he i j) (hf μ)
  rw [this]
  rw [Arr.squeeze_row _ hk]

/-- **C17** (affine functions). The Taylor transform is exact: mean `A m + b` (squeezed: a scalar if there is one output),
covariance `A P A'`, cross covariance `P A'`. -/
theorem C17_taylor_exact_affine {env : Env} {jac : Jac} (hjac : CorrectJac jac) {n k : ℕ} {g : Gaussian} {μ : Fin n → ℝ}
    {P : Matrix (Fin n) (Fin n) ℝ} (hg : HasMoments env g μ P) {func : Func} {A : Matrix (Fin k) (Fin n) ℝ} {b : Fin k → ℝ} :
    (VecFunc func (fun x => A *ᵥ x + b) →
      taylorTransform env jac func g = .ok ((Arr.v (A *ᵥ μ + b)).squeeze, .m (A * P * Aᵀ), .m (P * Aᵀ))) ∧
    (RowFunc func (fun x => A *ᵥ x + b) → n ≠ 1 → k ≠ 1 →
      taylorTransform env jac func g = .ok (.v (A *ᵥ μ + b), .m (A * P * Aᵀ), .m (P * Aᵀ))) := by
  have e : jacMat (LinearMap.toContinuousLinearMap A.mulVecLin) = A := by
    ext i j; exact affine_deriv_apply A i j
  constructor
  · intro hf
    have := C17_taylor_linearises hjac hg hf (hasFDerivAt_affine A b μ)
    rwa [e] at this
  · intro hf hn hk
    have := C17_taylor_linearises_rows hjac hn hk hg hf (hasFDerivAt_affine A b μ)
    rwa [e] at this

/-- The oracle contract is satisfiable, and the transform of a concrete affine map in dimension 2. -/
example : ∃ jac, CorrectJac jac ∧
    taylorTransform calmEnv jac (affineFunc !![1, 2; 0, 1] ![5, 6]) (Gaussian.ofMoment (.v ![1, 1]) (.m (diagonal ![2, 3]))) =
      .ok (.v ![8, 7], .m !![14, 6; 6, 3], .m !![2, 0; 6, 3]) := by
  refine ⟨exactJac, exactJac_correct, ?_⟩
  rw [(C17_taylor_exact_affine exactJac_correct (hasMoments_ofMoment _ _ _)).1 (affineFunc_vec _ _)]
  congr 2
  · rw [Arr.squeeze_v _ (by norm_num)]
    congr 1; ext i; fin_cases i <;> norm_num [mulVec, dotProduct, Fin.sum_univ_two]
  · congr 2 <;> ext i j <;> fin_cases i <;> fin_cases j <;>
      norm_num [Matrix.mul_apply, Fin.sum_univ_two, diagonal_apply, vecMul, dotProduct]

/-- **C17** (semidefiniteness). Whatever the function and whatever array the differentiation returns: if the Taylor transform
of a state with positive semidefinite covariance returns, its covariance is symmetric positive semidefinite. -/
theorem C17_taylor_cov_psd {env : Env} {jac : Jac} {n : ℕ} {g : Gaussian} {μ : Fin n → ℝ} {P : Matrix (Fin n) (Fin n) ℝ}
    (hg : HasMoments env g μ P) (hP : P.PosSemidef) (func : Func) {mean cov cross : Arr}
    (h : taylorTransform env jac func g = .ok (mean, cov, cross)) : ArrPSD cov := by
  unfold taylorTransform at h
  simp only [hg.meanA, hg.covA, ok_bind] at h
  obtain ⟨t, -, h⟩ := py_bind_ok h
  obtain ⟨J, -, h⟩ := py_bind_ok h
  obtain ⟨y, -, h⟩ := py_bind_ok h
  obtain ⟨a, ha, h⟩ := py_bind_ok h
  obtain ⟨b, hb, h⟩ := py_bind_ok h
  obtain ⟨c, -, h⟩ := py_bind_ok h
  simp only [py_pure, Except.ok.injEq, Prod.mk.injEq] at h
  obtain ⟨rfl, rfl, rfl⟩ := h
  cases J with
  | s j => simp [Arr.matmul] at ha
  | @v n' j =>
    have hn : n' = n := by
      by_contra hne
      simp [Arr.matmul, hne] at ha
    subst hn
    simp only [Arr.matmul_vm, Except.ok.injEq] at ha
    subst ha
    simp only [Arr.T_v, Arr.matmul_vv, Except.ok.injEq] at hb
    subst hb
    show 0 ≤ _
    rw [← dotProduct_mulVec]
    exact (posSemidef_iff_real.1 hP).2 j
  | @m r c J =>
    have hn : c = n := by
      by_contra hne
      simp [Arr.matmul, hne] at ha
    subst hn
    simp only [Arr.matmul_mm, Except.ok.injEq] at ha
    subst ha
    simp only [Arr.T_m, Arr.matmul_mm, Except.ok.injEq] at hb
    subst hb
    refine ⟨rfl, ?_⟩
    have := hP.mul_mul_conjTranspose_same J
    simpa using this

/-- Limit of C17: a differentiable function of a one-dimensional state that returns arrays of shape `(1, k)` can not be
transformed; `np.squeeze` removes the state axis of the Jacobian and the matrix product raises `ValueError`. -/
theorem C17_taylor_rows_scalar_state_fails {env : Env} {jac : Jac} (hjac : CorrectJac jac) {k : ℕ} {g : Gaussian}
    {μ : Fin 1 → ℝ} {P : Matrix (Fin 1) (Fin 1) ℝ} (hg : HasMoments env g μ P) {func : Func}
    {F : (Fin 1 → ℝ) → Fin k → ℝ} (hf : RowFunc func F)
    {F' : (Fin 1 → ℝ) →L[ℝ] (Fin k → ℝ)} (hF : HasFDerivAt F F' μ) :
    taylorTransform env jac func g = .error .value := by
  obtain ⟨t, ht, hs, he⟩ := (hjac func F F' μ hF).2 hf
  simp only [taylorTransform, hg.meanA, hg.covA, ht, ok_bind, toArr_1k1 hs, hf μ]
  split_ifs with hk
  · simp [Arr.matmul]
  · simp [Arr.matmul, hk]

/-- Limit of C17: with several states and one output of shape `(1, 1)` (one bearing sensor) the results are right but have lost
an axis: covariance is a scalar and cross covariance a vector. -/
theorem C17_taylor_rows_single_output {env : Env} {jac : Jac} (hjac : CorrectJac jac) {n : ℕ} (hn : n ≠ 1) {g : Gaussian}
    {μ : Fin n → ℝ} {P : Matrix (Fin n) (Fin n) ℝ} (hg : HasMoments env g μ P) {func : Func}
    {F : (Fin n → ℝ) → Fin 1 → ℝ} (hf : RowFunc func F)
    {F' : (Fin n → ℝ) →L[ℝ] (Fin 1 → ℝ)} (hF : HasFDerivAt F F' μ) :
    taylorTransform env jac func g = .ok (.s (F μ 0), .s (jacMat F' 0 ⬝ᵥ P *ᵥ jacMat F' 0), .v (P *ᵥ jacMat F' 0)) := by
  obtain ⟨t, ht, hs, he⟩ := (hjac func F F' μ hF).2 hf
  have hJ : (fun j : Fin n => t.get [0, 0, j]) = jacMat F' 0 := by
    funext j
    exact he 0 j
  simp only [taylorTransform, hg.meanA, hg.covA, ht, ok_bind, toArr_11n hs hn, hf μ, hJ, Arr.matmul_vm, Arr.T_v,
    Arr.matmul_vv, Arr.matmul_mv, py_pure, dotProduct_mulVec]
  simp [Arr.squeeze]

/-! ## C18 -/

/-- **C18** (affine equivariance). For every draw of at least two samples, the Monte Carlo transform of `x ↦ A x + b` returns the
affine image of the sample mean and sample covariance of that draw. -/
theorem C18_monte_carlo_affine {env : Env} (draw : Draw) {N : ℕ} (hN : 2 ≤ N) {n k : ℕ} (hnk : n + k ≠ 1)
    {g : Gaussian} {μ : Fin n → ℝ} {P : Matrix (Fin n) (Fin n) ℝ} (hg : HasMoments env g μ P)
    {func : Func} {A : Matrix (Fin k) (Fin n) ℝ} {b : Fin k → ℝ} (hf : AffineRows func A b) :
    mcTransform env draw N func g =
      .ok (.v (A *ᵥ sampleMean (draw N μ P) + b), .m (A * sampleCov (draw N μ P) * Aᵀ),
        .m (sampleCov (draw N μ P) * Aᵀ)) := by
  have hN0 : N ≠ 0 := by omega
  have hN1 : ¬ N ≤ 1 := by omega
  simp only [mcTransform, sample_ok hg, hf N, ok_bind]
  set X := draw N μ P
  have hY : ∀ l j, (X * Aᵀ + of fun _ j => b j : Matrix (Fin N) (Fin k) ℝ) l j = (∑ i, X l i * A j i) + b j := by
    intro l j; simp [Matrix.mul_apply]
  generalize (X * Aᵀ + of fun _ j => b j : Matrix (Fin N) (Fin k) ℝ) = Y at hY
  have hcross : ∀ i j, covEntry (fun l => X l i) (fun l => Y l j) = (sampleCov X * Aᵀ) i j := by
    intro i j
    simp only [hY, covEntry_affine_right hN0, Matrix.mul_apply, sampleCov_apply, transpose_apply]
  have hcov : ∀ i j, covEntry (fun l => Y l i) (fun l => Y l j) = (A * (sampleCov X * Aᵀ)) i j := by
    intro i j
    rw [covEntry_comm]
    simp only [hY _ i, covEntry_affine_right hN0]
    rw [Matrix.mul_apply]
    refine Finset.sum_congr rfl fun l _ => ?_
    rw [covEntry_comm, hcross, mul_comm]
  simp only [meanRows, if_neg hN0, ok_bind, Arr.T_m, sampleCovariance, Arr.atleast2d_m, dif_pos, if_neg hN1, if_neg hnk,
    py_pure]
  rw [Matrix.mul_assoc]
  congr 2
  · refine congrArg Arr.v (funext fun j => ?_)
    simp only [hY, mean_affine hN0, Pi.add_apply, mulVec, dotProduct, sampleMean_apply]
  · congr 1
    · refine congrArg Arr.m ?_
      ext i j; exact hcov i j
    · refine congrArg Arr.m ?_
      ext i j; exact hcross i j

/-- **C18** (semidefiniteness). Whatever the draw, the state and the function: if the Monte Carlo transform returns, its covariance
is symmetric positive semidefinite. -/
theorem C18_monte_carlo_cov_psd {env : Env} (draw : Draw) (N : ℕ) (func : Func) (state : Gaussian) {mean cov cross : Arr}
    (h : mcTransform env draw N func state = .ok (mean, cov, cross)) : ArrPSD cov := by
  unfold mcTransform at h
  obtain ⟨X, -, h⟩ := py_bind_ok h
  obtain ⟨Y, -, h⟩ := py_bind_ok h
  obtain ⟨mn, -, h⟩ := py_bind_ok h
  obtain ⟨⟨cv, cr⟩, hc, h⟩ := py_bind_ok h
  simp only [py_pure, Except.ok.injEq, Prod.mk.injEq] at h
  obtain ⟨rfl, rfl, rfl⟩ := h
  unfold sampleCovariance at hc
  split at hc
  · split_ifs at hc with h1 h2 h3
    simp only [Except.ok.injEq, Prod.mk.injEq] at hc
    obtain ⟨rfl, -⟩ := hc
    exact ⟨rfl, covEntry_psd (by omega) _⟩
  · cases hc

/-- Three samples of a two-dimensional state, one output. -/
example (env : Env) : mcTransform env (fun _ _ _ _ => of fun i j => if i.val = 1 then j.val + 1 else 0) 3
    (affineFunc !![1, 1] ![1]) (Gaussian.ofMoment (.v ![0, 0]) (.m (diagonal ![2, 3]))) =
      .ok (.v ![2], .m !![3], .m !![1; 2]) := by
  rw [C18_monte_carlo_affine _ (by norm_num) (by norm_num) (hasMoments_ofMoment _ _ _) (affineFunc_rows _ _)]
  have e : sampleCov (of fun (i : Fin 3) (j : Fin 2) => if i.val = 1 then (j.val : ℝ) + 1 else 0) = !![1 / 3, 2 / 3; 2 / 3, 4 / 3] := by
    ext i j
    rw [sampleCov_apply]
    fin_cases i <;> fin_cases j <;> simp only [covEntry, of_apply, Fin.sum_univ_three] <;> norm_num
  have e' : sampleMean (of fun (i : Fin 3) (j : Fin 2) => if i.val = 1 then (j.val : ℝ) + 1 else 0) = ![1 / 3, 2 / 3] := by
    ext i
    rw [sampleMean_apply]
    fin_cases i <;> simp only [of_apply, Fin.sum_univ_three] <;> norm_num
  rw [e, e']
  congr 2
  · congr 1; ext i; fin_cases i; norm_num [mulVec, dotProduct, Fin.sum_univ_two]
  · congr 2 <;> ext i j <;> fin_cases i <;> fin_cases j <;>
      norm_num [Matrix.mul_apply, Fin.sum_univ_two, vecMul, dotProduct]

/-! ## C19 -/

/-- **C19** (what is computed). For vector-valued functions of a nonempty vector, `numerical_jacobian` returns an array of shape
`(outputs, inputs)` of central differences. -/
theorem C19_central_differences {f : Func} {k n : ℕ} (hn : 0 < n) {F : (Fin n → ℝ) → Fin k → ℝ} (hf : VecFunc f F)
    (x : Fin n → ℝ) {eps : ℝ} (he : eps ≠ 0) :
    ∃ t, numericalJacobian f (.v x) eps = .ok t ∧ t.shape = [k, n] ∧ ∀ (i : Fin k) (j : Fin n),
      t.get [i, j] = (F (Function.update x j (x j + eps)) i - F (Function.update x j (x j - eps)) i) / (2 * eps) := by
  have h2 : 2 * eps ≠ 0 := mul_ne_zero two_ne_zero he
  have hcol : ∀ j ∈ List.range n, (do
      let y1 ← f ((Arr.v x).bump j eps)
      let y2 ← f ((Arr.v x).bump j (-eps))
      (← y1.sub y2).divS (2 * eps) : Py Arr) =
      .ok (.v ((2 * eps)⁻¹ • (F (if h : j < n then Function.update x ⟨j, h⟩ (x ⟨j, h⟩ + eps) else 0) -
        F (if h : j < n then Function.update x ⟨j, h⟩ (x ⟨j, h⟩ + -eps) else 0)))) := by
    intro j hj
    have hj' : j < n := List.mem_range.1 hj
    have b1 := bump_v x ⟨j, hj'⟩ eps
    have b2 := bump_v x ⟨j, hj'⟩ (-eps)
    simp only at b1 b2
    simp only [b1, b2, hf _, ok_bind, Arr.sub_vv, Arr.divS_v _ h2, dif_pos hj']
  obtain ⟨t, ht, hs, hg⟩ := stack_range (k := k) hn (fun j => (2 * eps)⁻¹ •
    (F (if h : j < n then Function.update x ⟨j, h⟩ (x ⟨j, h⟩ + eps) else 0) -
        F (if h : j < n then Function.update x ⟨j, h⟩ (x ⟨j, h⟩ + -eps) else 0)))
  refine ⟨t.T, ?_, by simp [Tensor.T, hs], fun i j => ?_⟩
  · simp only [numericalJacobian, hf x, ok_bind, Arr.len]
    rw [mapM_ok hcol, ok_bind, ht]
    rfl
  · simp only [Tensor.T, List.reverse_cons, List.reverse_nil, List.nil_append, List.cons_append]
    rw [hg j i]
    simp only [Fin.is_lt, dif_pos, sub_eq_add_neg (x j)]
    rw [div_eq_inv_mul]
    rfl

/-- **C19** (exactness). If every component is quadratic in each variable, the entries are the partial derivatives. -/
theorem C19_numerical_jacobian_exact {f : Func} {k n : ℕ} (hn : 0 < n) {F : (Fin n → ℝ) → Fin k → ℝ} (hf : VecFunc f F)
    (hq : QuadraticInEach F) (x : Fin n → ℝ) {eps : ℝ} (he : eps ≠ 0) :
    ∃ t, numericalJacobian f (.v x) eps = .ok t ∧ t.shape = [k, n] ∧ ∀ (i : Fin k) (j : Fin n),
      HasDerivAt (fun s => F (Function.update x j s) i) (t.get [i, j]) (x j) := by
  obtain ⟨t, ht, hs, hg⟩ := C19_central_differences hn hf x he
  refine ⟨t, ht, hs, fun i j => ?_⟩
  obtain ⟨a, b, c, h⟩ := hq x i j
  have hd : HasDerivAt (fun s : ℝ => a * s ^ 2 + b * s + c) (a * (2 * x j) + b) (x j) := by
    have h1 := ((hasDerivAt_pow 2 (x j)).const_mul a).add ((hasDerivAt_id (x j)).const_mul b)
    have h2 := h1.add_const c
    simpa using h2
  have : t.get [i, j] = a * (2 * x j) + b := by
    rw [hg, h, h]
    field_simp
    ring
  rw [this]
  simpa only [h] using hd

/-- **C19** for the general quadratic map, with the Jacobian written out. -/
theorem C19_numerical_jacobian_quadMap {f : Func} {k n : ℕ} (hn : 0 < n) {c : Fin k → ℝ} {B : Matrix (Fin k) (Fin n) ℝ}
    {Q : Fin k → Matrix (Fin n) (Fin n) ℝ} (hf : VecFunc f (quadMap c B Q)) (x : Fin n → ℝ) {eps : ℝ} (he : eps ≠ 0) :
    ∃ t, numericalJacobian f (.v x) eps = .ok t ∧ t.shape = [k, n] ∧ ∀ (i : Fin k) (j : Fin n),
      t.get [i, j] = B i j + ((Q i + (Q i)ᵀ) *ᵥ x) j := by
  obtain ⟨t, ht, hs, hg⟩ := C19_central_differences hn hf x he
  refine ⟨t, ht, hs, fun i j => ?_⟩
  have key : ∀ e : ℝ, quadMap c B Q (Function.update x j (x j + e)) i =
      quadMap c B Q x i + e * (B i j + ((Q i + (Q i)ᵀ) *ᵥ x) j) + e ^ 2 * Q i j j := by
    intro e
    have hu : Function.update x j (x j + e) = x + e • Pi.single j 1 := by
      ext l
      rcases eq_or_ne l j with rfl | hl
      · simp
      · simp [hl]
    have h1 : (Pi.single j 1 : Fin n → ℝ) ⬝ᵥ Q i *ᵥ x = (Q i *ᵥ x) j := by simp
    have h2 : x ⬝ᵥ Q i *ᵥ (Pi.single j 1 : Fin n → ℝ) = ((Q i)ᵀ *ᵥ x) j := by
      rw [mulVec_transpose]
      simp [vecMul, dotProduct]
    have h3 : (Pi.single j 1 : Fin n → ℝ) ⬝ᵥ Q i *ᵥ (Pi.single j 1 : Fin n → ℝ) = Q i j j := by simp
    have h4 : (B *ᵥ (Pi.single j 1 : Fin n → ℝ)) i = B i j := by simp
    simp only [quadMap, hu, mulVec_add, mulVec_smul, dotProduct_add, add_dotProduct, smul_dotProduct, dotProduct_smul,
      Pi.add_apply, Pi.smul_apply, smul_eq_mul, h1, h2, h3, h4, add_mulVec]
    ring
  have k1 := key eps
  have k2 := key (-eps)
  rw [hg, sub_eq_add_neg (x j), k1, k2]
  field_simp
  ring

/-- `x ↦ (x₀ x₁, x₁² + 3)` satisfies the hypothesis of the exactness theorem. -/
example : QuadraticInEach (fun x : Fin 2 → ℝ => ![x 0 * x 1, x 1 ^ 2 + 3]) := by
  intro x i j
  fin_cases i <;> fin_cases j
  · exact ⟨0, x 1, 0, fun s => by simp; ring⟩
  · exact ⟨0, x 0, 0, fun s => by simp⟩
  · exact ⟨0, 0, x 1 ^ 2 + 3, fun s => by simp⟩
  · exact ⟨1, 0, 3, fun s => by simp⟩

/-- Beyond quadratics the result is not exact: for `x ↦ x³` the entry is `3x² + eps²`. -/
theorem C19_cubic_error (x eps : ℝ) (he : eps ≠ 0) :
    ∃ t, numericalJacobian (fun a => .ok (a.map (· ^ 3))) (.v ![x]) eps = .ok t ∧ t.shape = [1, 1] ∧
      t.get [0, 0] = 3 * x ^ 2 + eps ^ 2 := by
  have hf : VecFunc (fun a => .ok (a.map (· ^ 3))) (fun z : Fin 1 → ℝ => fun i => z i ^ 3) := fun z => rfl
  obtain ⟨t, ht, hs, hg⟩ := C19_central_differences (by norm_num) hf ![x] he
  refine ⟨t, ht, hs, ?_⟩
  have := hg 0 0
  simp at this
  rw [this]
  field_simp
  ring

end Verif
