import Verif.Lemmas.Cholesky
import Verif.Lemmas.Bayes
import Verif.Spec.Posterior
import Mathlib.Analysis.SpecialFunctions.Gaussian.GaussianIntegral
import Mathlib.MeasureTheory.Integral.Pi
import Mathlib.LinearAlgebra.Matrix.SchurComplement

/-! Integrals and products of normal densities. -/

namespace Verif

open Matrix MeasureTheory

variable {n k : ℕ}

/-- The integral of the unnormalised standard Gaussian. -/
theorem integral_std (n : ℕ) : ∫ w : Fin n → ℝ, Real.exp (-(w ⬝ᵥ w) / 2) = Real.sqrt (2 * Real.pi) ^ n := by
  have h : ∀ w : Fin n → ℝ, Real.exp (-(w ⬝ᵥ w) / 2) = ∏ i, Real.exp (-(1 / 2) * w i ^ 2) := fun w => by
    rw [← Real.exp_sum]
    congr 1
    rw [← Finset.mul_sum, dotProduct]
    simp only [← sq]; ring
  simp only [h]
  rw [MeasureTheory.integral_fintype_prod_volume_eq_prod (fun (_ : Fin n) (t : ℝ) => Real.exp (-(1 / 2) * t ^ 2))]
  simp only [integral_gaussian, Finset.prod_const, Finset.card_univ, Fintype.card_fin]
  congr 2
  field_simp

theorem integral_quad {C : Matrix (Fin n) (Fin n) ℝ} (hC : C.PosDef) :
    ∫ x : Fin n → ℝ, Real.exp (-(x ⬝ᵥ C⁻¹ *ᵥ x) / 2) = Real.sqrt C.det * Real.sqrt (2 * Real.pi) ^ n := by
  obtain ⟨R, hR⟩ := exists_upperChol hC
  have hCd : C.det = R.det ^ 2 := by rw [← hR.mul_eq, det_mul, det_transpose, sq]
  have hdet : 0 < R.det := by
    rw [det_of_isUpperTriangular (fun i j h => hR.upper i j h)]
    exact Finset.prod_pos fun i _ => hR.diag_pos i
  have hRt : Rᵀ.det ≠ 0 := by rw [det_transpose]; exact hdet.ne'
  have hmap := Real.map_matrix_volume_pi_eq_smul_volume_pi hRt
  have hq : ∀ w : Fin n → ℝ, (Rᵀ *ᵥ w) ⬝ᵥ C⁻¹ *ᵥ (Rᵀ *ᵥ w) = w ⬝ᵥ w := fun w => by
    have hCi : C⁻¹ = R⁻¹ * (Rᵀ)⁻¹ := by rw [← hR.mul_eq, Matrix.mul_inv_rev]
    have hu : IsUnit Rᵀ.det := isUnit_iff_ne_zero.2 hRt
    have hu' : IsUnit R.det := isUnit_iff_ne_zero.2 hdet.ne'
    rw [hCi, ← mulVec_mulVec, mulVec_mulVec w, nonsing_inv_mul _ hu, one_mulVec, mulVec_transpose, ← dotProduct_mulVec,
      mulVec_mulVec, mul_nonsing_inv _ hu', one_mulVec]
  have hcont : Continuous fun x : Fin n → ℝ => Real.exp (-(x ⬝ᵥ C⁻¹ *ᵥ x) / 2) := by
    unfold dotProduct mulVec dotProduct
    fun_prop
  have h1 : ∫ w : Fin n → ℝ, Real.exp (-((toLin' Rᵀ w) ⬝ᵥ C⁻¹ *ᵥ (toLin' Rᵀ w)) / 2) =
      ∫ x, Real.exp (-(x ⬝ᵥ C⁻¹ *ᵥ x) / 2) ∂(Measure.map (toLin' Rᵀ) volume) :=
    (integral_map (toLin' Rᵀ).continuous_of_finiteDimensional.measurable.aemeasurable hcont.aestronglyMeasurable).symm
  rw [hmap, integral_smul_measure] at h1
  simp only [toLin'_apply, hq] at h1
  rw [integral_std, det_transpose, abs_of_pos (inv_pos.2 hdet), ENNReal.toReal_ofReal (inv_pos.2 hdet).le, smul_eq_mul] at h1
  rw [hCd, Real.sqrt_sq hdet.le, h1]
  field_simp

theorem normalPdf_pos {C : Matrix (Fin n) (Fin n) ℝ} (hC : C.PosDef) (μ x : Fin n → ℝ) : 0 < normalPdf μ C x := by
  have := Real.sqrt_pos.2 hC.det_pos
  have : 0 < Real.sqrt (2 * Real.pi) := Real.sqrt_pos.2 (by positivity)
  unfold normalPdf
  positivity

theorem integral_normalPdf {C : Matrix (Fin n) (Fin n) ℝ} (hC : C.PosDef) (μ : Fin n → ℝ) : ∫ x, normalPdf μ C x = 1 := by
  have h1 := Real.sqrt_pos.2 hC.det_pos
  have h2 : 0 < Real.sqrt (2 * Real.pi) := Real.sqrt_pos.2 (by positivity)
  unfold normalPdf
  rw [integral_const_mul, integral_sub_right_eq_self (fun x : Fin n → ℝ => Real.exp (-(x ⬝ᵥ C⁻¹ *ᵥ x) / 2)), integral_quad hC]
  exact inv_mul_cancel₀ (by positivity)

theorem integrable_normalPdf {C : Matrix (Fin n) (Fin n) ℝ} (hC : C.PosDef) (μ : Fin n → ℝ) : Integrable (normalPdf μ C) := by
  by_contra h
  have := integral_undef h
  rw [integral_normalPdf hC] at this
  exact one_ne_zero this

theorem continuous_normalPdf {C : Matrix (Fin n) (Fin n) ℝ} : Continuous fun p : (Fin n → ℝ) × (Fin n → ℝ) => normalPdf p.1 C p.2 := by
  unfold normalPdf dotProduct mulVec dotProduct
  fun_prop

theorem measurable_normalPdf {α : Type*} [MeasurableSpace α] {C : Matrix (Fin n) (Fin n) ℝ} {f g : α → Fin n → ℝ}
    (hf : Measurable f) (hg : Measurable g) : Measurable fun a => normalPdf (f a) C (g a) := by
  have h := (continuous_normalPdf (C := C)).measurable
  have h2 := h.comp (hf.prodMk hg)
  simpa only [Function.comp_def] using h2

/-- `det P · det R = det (H P Hᵀ + R) · det (condCov P H R)`. -/
theorem det_innov {P : Matrix (Fin n) (Fin n) ℝ} {R : Matrix (Fin k) (Fin k) ℝ} (hP : P.PosDef) (hR : R.PosDef)
    (H : Matrix (Fin k) (Fin n) ℝ) : (H * P * Hᵀ + R).det * (condCov P H R).det = P.det * R.det := by
  have h1 : (P⁻¹ + Hᵀ * R⁻¹ * H).det * (condCov P H R).det = 1 := by
    rw [← det_mul, info_mul_condCov hP hR, det_one]
  have h2 : P * (P⁻¹ + Hᵀ * R⁻¹ * H) = 1 + (P * Hᵀ) * (R⁻¹ * H) := by
    rw [Matrix.mul_add, posDef_mul_inv hP]; simp only [Matrix.mul_assoc]
  have h3 : (1 + (R⁻¹ * H) * (P * Hᵀ)) = R⁻¹ * (H * P * Hᵀ + R) := by
    rw [Matrix.mul_add, posDef_inv_mul hR, add_comm]; simp only [Matrix.mul_assoc]
  have h4 : P.det * (P⁻¹ + Hᵀ * R⁻¹ * H).det = R⁻¹.det * (H * P * Hᵀ + R).det := by
    rw [← det_mul, h2, det_one_add_mul_comm, h3, det_mul]
  have h5 : R.det * R⁻¹.det = 1 := by rw [← det_mul, posDef_mul_inv hR, det_one]
  generalize (P⁻¹ + Hᵀ * R⁻¹ * H).det = i at h1 h4
  generalize (H * P * Hᵀ + R).det = s at h4 ⊢
  generalize (condCov P H R).det = d at h1 ⊢
  generalize R⁻¹.det = r' at h4 h5
  generalize R.det = r at h5 ⊢
  generalize P.det = p at h4 ⊢
  linear_combination (p * r) * h1 - (r * d) * h4 - (s * d) * h5

/-- Prior times likelihood is evidence times posterior. -/
theorem normalPdf_mul {P : Matrix (Fin n) (Fin n) ℝ} {R : Matrix (Fin k) (Fin k) ℝ} (hP : P.PosDef) (hR : R.PosDef)
    (H : Matrix (Fin k) (Fin n) ℝ) (m : Fin n → ℝ) (c y : Fin k → ℝ) (x : Fin n → ℝ) :
    normalPdf m P x * normalPdf (H *ᵥ x + c) R y =
      normalPdf (H *ᵥ m + c) (H * P * Hᵀ + R) y * normalPdf (condMean m P H c R y) (condCov P H R) x := by
  have hq := bayes_quad hP hR H m c y x
  have hd := det_innov hP hR H
  have hd' : Real.sqrt (H * P * Hᵀ + R).det * Real.sqrt (condCov P H R).det = Real.sqrt P.det * Real.sqrt R.det := by
    rw [← Real.sqrt_mul (innov_posDef hP.posSemidef hR H).det_pos.le, hd, Real.sqrt_mul hP.det_pos.le]
  unfold normalPdf
  unfold quad at hq
  have e : ∀ a b c d a' b' c' d' : ℝ, a * b = a' * b' → c + d = c' + d' →
      a⁻¹ * Real.exp c * (b⁻¹ * Real.exp d) = a'⁻¹ * Real.exp c' * (b'⁻¹ * Real.exp d') := fun a b c d a' b' c' d' h1 h2 => by
    rw [mul_mul_mul_comm, ← mul_inv, ← Real.exp_add, h1, h2, Real.exp_add, mul_inv]; ring
  refine e _ _ _ _ _ _ _ _ ?_ ?_
  · rw [mul_mul_mul_comm, mul_mul_mul_comm (Real.sqrt (H * P * Hᵀ + R).det), hd']; ring
  · linarith

/-- Marginalisation. -/
theorem integral_normalPdf_mul {P : Matrix (Fin n) (Fin n) ℝ} {R : Matrix (Fin k) (Fin k) ℝ} (hP : P.PosDef) (hR : R.PosDef)
    (H : Matrix (Fin k) (Fin n) ℝ) (m : Fin n → ℝ) (c y : Fin k → ℝ) :
    ∫ x, normalPdf m P x * normalPdf (H *ᵥ x + c) R y = normalPdf (H *ᵥ m + c) (H * P * Hᵀ + R) y := by
  simp only [normalPdf_mul hP hR]
  rw [integral_const_mul, integral_normalPdf (condCov_posDef hP hR H), mul_one]

theorem lintegral_normalPdf {C : Matrix (Fin n) (Fin n) ℝ} (hC : C.PosDef) (μ : Fin n → ℝ) :
    ∫⁻ x, ENNReal.ofReal (normalPdf μ C x) = 1 := by
  rw [← ofReal_integral_eq_lintegral_ofReal (integrable_normalPdf hC μ) (.of_forall fun x => (normalPdf_pos hC μ x).le),
    integral_normalPdf hC, ENNReal.ofReal_one]

theorem lintegral_normalPdf_mul {P : Matrix (Fin n) (Fin n) ℝ} {R : Matrix (Fin k) (Fin k) ℝ} (hP : P.PosDef) (hR : R.PosDef)
    (H : Matrix (Fin k) (Fin n) ℝ) (m : Fin n → ℝ) (c y : Fin k → ℝ) :
    ∫⁻ x, ENNReal.ofReal (normalPdf m P x) * ENNReal.ofReal (normalPdf (H *ᵥ x + c) R y) =
      ENNReal.ofReal (normalPdf (H *ᵥ m + c) (H * P * Hᵀ + R) y) := by
  have hS := innov_posDef hP.posSemidef hR H
  have e : ∀ x, ENNReal.ofReal (normalPdf m P x) * ENNReal.ofReal (normalPdf (H *ᵥ x + c) R y) =
      ENNReal.ofReal (normalPdf (H *ᵥ m + c) (H * P * Hᵀ + R) y) *
        ENNReal.ofReal (normalPdf (condMean m P H c R y) (condCov P H R) x) := fun x => by
    rw [← ENNReal.ofReal_mul (normalPdf_pos hP _ _).le, normalPdf_mul hP hR, ENNReal.ofReal_mul (normalPdf_pos hS _ _).le]
  simp only [e]
  rw [lintegral_const_mul' _ _ ENNReal.ofReal_ne_top, lintegral_normalPdf (condCov_posDef hP hR H), mul_one]

end Verif
