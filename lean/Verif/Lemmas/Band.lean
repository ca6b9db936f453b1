import Mathlib.Analysis.Complex.Exponential
import Mathlib.Analysis.Real.Pi.Bounds
import Mathlib.Analysis.SpecialFunctions.Integrals.Basic
import Mathlib.Probability.Distributions.Gaussian.Real
import Verif.Lemmas.Normal

/-! The probability of the interval of 1.96 standard deviations about the mean of a normal distribution. -/

namespace Verif

open MeasureTheory ProbabilityTheory

/-- The Taylor polynomial of `exp (-x² / 2)`. -/
private noncomputable def tay (x : ℝ) : ℝ := ∑ m ∈ Finset.range 20, (-(x ^ 2 / 2)) ^ m / m.factorial

private theorem tay_close {x : ℝ} (hx : |x| ≤ 1.96) : |Real.exp (-(x ^ 2 / 2)) - tay x| ≤ 1e-11 := by
  have hx2 : x ^ 2 / 2 ≤ 1.9208 := by nlinarith [sq_abs x, abs_nonneg x]
  have h0 : 0 ≤ x ^ 2 / 2 := by positivity
  have hn : ‖((-(x ^ 2 / 2) : ℝ) : ℂ)‖ = x ^ 2 / 2 := by rw [Complex.norm_real, Real.norm_eq_abs, abs_neg, abs_of_nonneg h0]
  have h := Complex.exp_bound' (x := ((-(x ^ 2 / 2) : ℝ) : ℂ)) (n := 20) (by rw [hn]; norm_num; linarith)
  rw [hn] at h
  have e : ‖Complex.exp ((-(x ^ 2 / 2) : ℝ) : ℂ) - ∑ m ∈ Finset.range 20, ((-(x ^ 2 / 2) : ℝ) : ℂ) ^ m / m.factorial‖ =
      |Real.exp (-(x ^ 2 / 2)) - tay x| := by
    rw [← Real.norm_eq_abs, ← Complex.norm_real]
    congr 1
    push_cast [tay]
    rfl
  rw [e] at h
  refine h.trans ?_
  have : (x ^ 2 / 2) ^ 20 ≤ (1.9208 : ℝ) ^ 20 := pow_le_pow_left₀ h0 hx2 20
  have hf : ((20 : ℕ).factorial : ℝ) = 2432902008176640000 := by norm_num [Nat.factorial]
  rw [hf]
  calc (x ^ 2 / 2) ^ 20 / 2432902008176640000 * 2 ≤ (1.9208 : ℝ) ^ 20 / 2432902008176640000 * 2 := by gcongr
    _ ≤ 1e-11 := by norm_num

private theorem integral_tay : ∫ x in (-1.96 : ℝ)..1.96, tay x =
    ∑ m ∈ Finset.range 20, (-1 / 2 : ℝ) ^ m / m.factorial * ((1.96 ^ (2 * m + 1) - (-1.96) ^ (2 * m + 1)) / ((2 * m : ℕ) + 1)) := by
  unfold tay
  rw [intervalIntegral.integral_finsetSum fun m _ => (by fun_prop : Continuous _).intervalIntegrable _ _]
  refine Finset.sum_congr rfl fun m _ => ?_
  rw [← integral_pow, ← intervalIntegral.integral_const_mul]
  congr 1
  funext x
  rw [pow_mul]
  rw [show -(x ^ 2 / 2) = (-1 / 2) * x ^ 2 by ring, mul_pow]
  ring

theorem integral_band : |(∫ x in (-1.96 : ℝ)..1.96, Real.exp (-(x ^ 2 / 2))) - 2.381307| ≤ 5e-6 := by
  have h1 : |(∫ x in (-1.96 : ℝ)..1.96, Real.exp (-(x ^ 2 / 2))) - ∫ x in (-1.96 : ℝ)..1.96, tay x| ≤ 1e-10 := by
    rw [← intervalIntegral.integral_sub ((by fun_prop : Continuous _).intervalIntegrable _ _)
      ((by unfold tay; fun_prop : Continuous _).intervalIntegrable _ _), ← Real.norm_eq_abs]
    refine (intervalIntegral.norm_integral_le_of_norm_le_const (C := 1e-11) fun x hx => ?_).trans (by norm_num [abs_of_pos])
    rw [Set.uIoc_of_le (by norm_num)] at hx
    exact tay_close (abs_le.2 ⟨hx.1.le, hx.2⟩)
  have h2 : |(∫ x in (-1.96 : ℝ)..1.96, tay x) - 2.381307| ≤ 4e-6 := by
    rw [integral_tay]
    simp only [Finset.sum_range_succ, Finset.sum_range_zero, Nat.factorial]
    norm_num [abs_le]
  rw [abs_le] at *
  constructor <;> linarith [h1.1, h1.2, h2.1, h2.2]

/-- The standard normal distribution gives the interval `[-1.96, 1.96]` a probability of 0.95000. -/
theorem standard_band : 0.95 ≤ ∫ x in (-1.96 : ℝ)..1.96, gaussianPDFReal 0 1 x ∧ ∫ x in (-1.96 : ℝ)..1.96, gaussianPDFReal 0 1 x ≤ 0.95001 := by
  have e : ∫ x in (-1.96 : ℝ)..1.96, gaussianPDFReal 0 1 x = (Real.sqrt (2 * Real.pi))⁻¹ * ∫ x in (-1.96 : ℝ)..1.96, Real.exp (-(x ^ 2 / 2)) := by
    rw [← intervalIntegral.integral_const_mul]
    congr 1
    funext x
    simp [gaussianPDFReal, neg_div]
  rw [e]
  have h := abs_le.1 integral_band
  have hs1 : Real.sqrt (2 * Real.pi) ≤ 2.50662829 := Real.sqrt_le_iff.2 ⟨by norm_num, by nlinarith [Real.pi_lt_d20]⟩
  have hs2 : 2.50662827 ≤ Real.sqrt (2 * Real.pi) := Real.le_sqrt_of_sq_le (by nlinarith [Real.pi_gt_d20])
  have hpos : 0 < Real.sqrt (2 * Real.pi) := by linarith
  constructor
  · rw [inv_mul_eq_div, le_div_iff₀ hpos]; nlinarith
  · rw [inv_mul_eq_div, div_le_iff₀ hpos]; nlinarith

private theorem setIntegral_band : (∫ x in Set.Icc (-1.96 : ℝ) 1.96, gaussianPDFReal 0 1 x) = ∫ x in (-1.96 : ℝ)..1.96, gaussianPDFReal 0 1 x := by
  rw [integral_Icc_eq_integral_Ioc, intervalIntegral.integral_of_le (by norm_num)]

/-- Every centred normal distribution gives the numbers of at most 1.96 standard deviations this probability. -/
theorem gaussianReal_band {v : NNReal} (hv : v ≠ 0) : 0.95 ≤ (gaussianReal 0 v).real {x | |x| ≤ 1.96 * Real.sqrt v} ∧
    (gaussianReal 0 v).real {x | |x| ≤ 1.96 * Real.sqrt v} ≤ 0.95001 := by
  have hs : 0 < Real.sqrt v := Real.sqrt_pos.2 (by positivity)
  have e : gaussianReal 0 v = (gaussianReal 0 1).map (Real.sqrt v * ·) := by
    rw [gaussianReal_map_const_mul, mul_zero]
    congr 1
    ext
    simp
  have h : (gaussianReal 0 v).real {x | |x| ≤ 1.96 * Real.sqrt v} = ∫ x in (-1.96 : ℝ)..1.96, gaussianPDFReal 0 1 x := by
    have hm : MeasurableSet {x : ℝ | |x| ≤ 1.96 * Real.sqrt v} := measurableSet_le (by fun_prop) (by fun_prop)
    have hp : (Real.sqrt v * ·) ⁻¹' {x : ℝ | |x| ≤ 1.96 * Real.sqrt v} = Set.Icc (-1.96 : ℝ) 1.96 := by
      ext x
      simp only [Set.mem_preimage, Set.mem_ofPred_eq, Set.mem_Icc, abs_mul, abs_of_pos hs]
      rw [mul_comm, mul_le_mul_iff_left₀ hs, abs_le]
    rw [e, measureReal_def, Measure.map_apply (by fun_prop) hm, hp, gaussianReal_apply_eq_integral _ one_ne_zero, setIntegral_band,
      ENNReal.toReal_ofReal (by linarith [standard_band.1])]
  rw [h]
  exact standard_band

open Matrix in
/-- The first component of a normal distribution. -/
theorem integral_first {n : ℕ} {C : Matrix (Fin (n + 1)) (Fin (n + 1)) ℝ} (hC : C.PosDef) (μ : Fin (n + 1) → ℝ) {g : ℝ → ℝ} (hg : Measurable g) :
    ∫ x, g (x 0 - μ 0) * normalPdf μ C x = ∫ t, g (Real.sqrt (C 0 0) * t) * gaussianPDFReal 0 1 t := by
  obtain ⟨R, hR⟩ := exists_upperChol hC
  have hCd : C.det = R.det ^ 2 := by rw [← hR.mul_eq, det_mul, det_transpose, sq]
  have hdet : 0 < R.det := by
    rw [det_of_isUpperTriangular (fun i j h => hR.upper i j h)]
    exact Finset.prod_pos fun i _ => hR.diag_pos i
  have hRt : Rᵀ.det ≠ 0 := by rw [det_transpose]; exact hdet.ne'
  have hmap := Real.map_matrix_volume_pi_eq_smul_volume_pi hRt
  have hq : ∀ w : Fin (n + 1) → ℝ, (Rᵀ *ᵥ w) ⬝ᵥ C⁻¹ *ᵥ (Rᵀ *ᵥ w) = w ⬝ᵥ w := fun w => by
    have hCi : C⁻¹ = R⁻¹ * (Rᵀ)⁻¹ := by rw [← hR.mul_eq, Matrix.mul_inv_rev]
    have hu : IsUnit Rᵀ.det := isUnit_iff_ne_zero.2 hRt
    have hu' : IsUnit R.det := isUnit_iff_ne_zero.2 hdet.ne'
    rw [hCi, ← mulVec_mulVec, mulVec_mulVec w, nonsing_inv_mul _ hu, one_mulVec, mulVec_transpose, ← dotProduct_mulVec,
      mulVec_mulVec, mul_nonsing_inv _ hu', one_mulVec]
  have h0 : ∀ w : Fin (n + 1) → ℝ, (Rᵀ *ᵥ w) 0 = R 0 0 * w 0 := fun w => by
    rw [mulVec, dotProduct, Fin.sum_univ_succ]
    simp [transpose_apply, hR.upper _ _ (Fin.succ_pos _)]
  have hC0 : Real.sqrt (C 0 0) = R 0 0 := by
    have : C 0 0 = R 0 0 ^ 2 := by
      rw [← hR.mul_eq, Matrix.mul_apply, Fin.sum_univ_succ]
      simp [transpose_apply, hR.upper _ _ (Fin.succ_pos _), sq]
    rw [this, Real.sqrt_sq (hR.diag_pos 0).le]
  have hmeas : Measurable fun x : Fin (n + 1) → ℝ => g (x 0) * Real.exp (-(x ⬝ᵥ C⁻¹ *ᵥ x) / 2) := by
    have h : Continuous fun x : Fin (n + 1) → ℝ => Real.exp (-(x ⬝ᵥ C⁻¹ *ᵥ x) / 2) := by
      unfold dotProduct mulVec dotProduct
      fun_prop
    exact (hg.comp (measurable_pi_apply 0)).mul h.measurable
  have h1 : ∫ w : Fin (n + 1) → ℝ, g ((toLin' Rᵀ w) 0) * Real.exp (-((toLin' Rᵀ w) ⬝ᵥ C⁻¹ *ᵥ (toLin' Rᵀ w)) / 2) =
      ∫ x, g (x 0) * Real.exp (-(x ⬝ᵥ C⁻¹ *ᵥ x) / 2) ∂(Measure.map (toLin' Rᵀ) volume) :=
    (integral_map (toLin' Rᵀ).continuous_of_finiteDimensional.measurable.aemeasurable hmeas.aestronglyMeasurable).symm
  rw [hmap, integral_smul_measure] at h1
  simp only [toLin'_apply, hq, h0] at h1
  rw [det_transpose, abs_of_pos (inv_pos.2 hdet), ENNReal.toReal_ofReal (inv_pos.2 hdet).le, smul_eq_mul] at h1
  have h2 : ∫ w : Fin (n + 1) → ℝ, g (R 0 0 * w 0) * Real.exp (-(w ⬝ᵥ w) / 2) =
      (∫ t, g (R 0 0 * t) * Real.exp (-(1 / 2) * t ^ 2)) * Real.sqrt (2 * Real.pi) ^ n := by
    have h : ∀ w : Fin (n + 1) → ℝ, g (R 0 0 * w 0) * Real.exp (-(w ⬝ᵥ w) / 2) =
        ∏ i, (Fin.cons (fun t => g (R 0 0 * t) * Real.exp (-(1 / 2) * t ^ 2)) (fun _ t => Real.exp (-(1 / 2) * t ^ 2)) :
          Fin (n + 1) → ℝ → ℝ) i (w i) := fun w => by
      rw [Fin.prod_univ_succ]
      simp only [Fin.cons_zero, Fin.cons_succ]
      rw [← Real.exp_sum, mul_assoc, ← Real.exp_add, dotProduct, Fin.sum_univ_succ, ← Finset.mul_sum]
      simp only [← sq]
      congr 2
      ring
    simp only [h]
    rw [MeasureTheory.integral_fintype_prod_volume_eq_prod, Fin.prod_univ_succ]
    simp only [Fin.cons_zero, Fin.cons_succ, integral_gaussian, Finset.prod_const, Finset.card_univ, Fintype.card_fin]
    congr 3
    field_simp
  rw [h2] at h1
  have e1 : ∫ x, g (x 0 - μ 0) * normalPdf μ C x =
      (Real.sqrt (2 * Real.pi) ^ (n + 1) * Real.sqrt C.det)⁻¹ * ∫ x : Fin (n + 1) → ℝ, g (x 0) * Real.exp (-(x ⬝ᵥ C⁻¹ *ᵥ x) / 2) := by
    rw [← integral_sub_right_eq_self (fun x : Fin (n + 1) → ℝ => g (x 0) * Real.exp (-(x ⬝ᵥ C⁻¹ *ᵥ x) / 2)) μ, ← integral_const_mul]
    congr 1
    funext x
    simp only [normalPdf, Pi.sub_apply]
    ring
  have e2 : ∫ t, g (Real.sqrt (C 0 0) * t) * gaussianPDFReal 0 1 t =
      (Real.sqrt (2 * Real.pi))⁻¹ * ∫ t, g (R 0 0 * t) * Real.exp (-(1 / 2) * t ^ 2) := by
    rw [← integral_const_mul, hC0]
    congr 1
    funext t
    simp only [gaussianPDFReal, NNReal.coe_one, mul_one, sub_zero]
    rw [show -t ^ 2 / 2 = -(1 / 2) * t ^ 2 by ring]
    ring
  have hp : 0 < Real.sqrt (2 * Real.pi) := Real.sqrt_pos.2 (by positivity)
  rw [e1, e2, hCd, Real.sqrt_sq hdet.le]
  generalize (∫ t, g (R 0 0 * t) * Real.exp (-(1 / 2) * t ^ 2)) = I at h1 ⊢
  generalize (∫ x : Fin (n + 1) → ℝ, g (x 0) * Real.exp (-(x ⬝ᵥ C⁻¹ *ᵥ x) / 2)) = J at h1 ⊢
  have hJ : J = R.det * (I * Real.sqrt (2 * Real.pi) ^ n) := by rw [h1]; field_simp
  rw [hJ, pow_succ]
  field_simp

/-- The probability of the interval of 1.96 standard deviations for the first component. -/
theorem normalPdf_band {n : ℕ} {C : Matrix (Fin (n + 1)) (Fin (n + 1)) ℝ} (hC : C.PosDef) (μ : Fin (n + 1) → ℝ) :
    0.95 ≤ (∫ x in {x | x 0 ∈ Set.Icc (μ 0 - 1.96 * Real.sqrt (C 0 0)) (μ 0 + 1.96 * Real.sqrt (C 0 0))}, normalPdf μ C x) ∧
    (∫ x in {x | x 0 ∈ Set.Icc (μ 0 - 1.96 * Real.sqrt (C 0 0)) (μ 0 + 1.96 * Real.sqrt (C 0 0))}, normalPdf μ C x) ≤ 0.95001 := by
  have hs : 0 < Real.sqrt (C 0 0) := Real.sqrt_pos.2 hC.diag_pos
  have hm : MeasurableSet {x : Fin (n + 1) → ℝ | x 0 ∈ Set.Icc (μ 0 - 1.96 * Real.sqrt (C 0 0)) (μ 0 + 1.96 * Real.sqrt (C 0 0))} :=
    measurable_pi_apply 0 measurableSet_Icc
  set S : Set ℝ := {t | |t| ≤ 1.96 * Real.sqrt (C 0 0)} with hS
  have hSm : MeasurableSet S := measurableSet_le (by fun_prop) (by fun_prop)
  have h := integral_first hC μ (g := S.indicator fun _ => 1) (measurable_const.indicator hSm)
  have e1 : (∫ x in {x | x 0 ∈ Set.Icc (μ 0 - 1.96 * Real.sqrt (C 0 0)) (μ 0 + 1.96 * Real.sqrt (C 0 0))}, normalPdf μ C x) =
      ∫ x, S.indicator (fun _ => 1) (x 0 - μ 0) * normalPdf μ C x := by
    rw [← integral_indicator hm]
    congr 1
    funext x
    have hiff : x ∈ {x : Fin (n + 1) → ℝ | x 0 ∈ Set.Icc (μ 0 - 1.96 * Real.sqrt (C 0 0)) (μ 0 + 1.96 * Real.sqrt (C 0 0))} ↔ x 0 - μ 0 ∈ S := by
      rw [hS, Set.mem_ofPred_eq, Set.mem_ofPred_eq, Set.mem_Icc, abs_le]
      constructor <;> rintro ⟨h1, h2⟩ <;> constructor <;> linarith
    by_cases hx : x 0 - μ 0 ∈ S
    · rw [Set.indicator_of_mem (hiff.2 hx), Set.indicator_of_mem hx, one_mul]
    · rw [Set.indicator_of_notMem (fun hh => hx (hiff.1 hh)), Set.indicator_of_notMem hx, zero_mul]
  have e2 : ∫ t, S.indicator (fun _ => 1) (Real.sqrt (C 0 0) * t) * gaussianPDFReal 0 1 t = ∫ x in (-1.96 : ℝ)..1.96, gaussianPDFReal 0 1 x := by
    rw [← setIntegral_band, ← integral_indicator measurableSet_Icc]
    congr 1
    funext t
    have : Real.sqrt (C 0 0) * t ∈ S ↔ t ∈ Set.Icc (-1.96 : ℝ) 1.96 := by
      rw [hS, Set.mem_ofPred_eq, abs_mul, abs_of_pos hs, mul_comm, mul_le_mul_iff_left₀ hs, abs_le, Set.mem_Icc]
    by_cases ht : t ∈ Set.Icc (-1.96 : ℝ) 1.96
    · rw [Set.indicator_of_mem (this.2 ht), Set.indicator_of_mem ht, one_mul]
    · rw [Set.indicator_of_notMem (fun hh => ht (this.1 hh)), Set.indicator_of_notMem ht, zero_mul]
  rw [e1, h, e2]
  exact standard_band

end Verif
