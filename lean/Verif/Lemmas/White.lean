import Verif.Spec.ChiSquare
import Verif.Lemmas.Indep
import Mathlib.Analysis.Matrix.Order

/-! Whitened errors. -/

namespace Verif

open Matrix MeasureTheory StateSpace
open ProbabilityTheory (HasGaussianLaw isGaussian_of_map_eq_gaussianReal covariance covariance_eq_sub gaussianReal iIndepFun
  iIndepFun_iff_map_fun_eq_pi_map variance_fun_id_gaussianReal variance_eq_integral integral_id_gaussianReal)

variable {Ω : Type*} [MeasurableSpace Ω] {ℙ : Measure Ω} {rng : Ω → Rng}

/-- Combinations of normal draws are jointly normal. -/
theorem gaussian_of_combinations [IsProbabilityMeasure ℙ] (h : NormalDraws ℙ rng) {ι : Type} [Fintype ι] {W : ι → Ω → ℝ}
    (hW : ∀ i, Combination rng (W i)) : HasGaussianLaw (fun ω i => W i ω) ℙ := by
  classical
  have hm : AEMeasurable (fun ω i => W i ω) ℙ := aemeasurable_pi_lambda _ fun i => ((hW i).memLp h.toFairDraws).1.aemeasurable
  refine ⟨isGaussian_of_map_eq_gaussianReal fun T => ?_⟩
  have hcomb : Combination rng fun ω => T fun i => W i ω := by
    have e : ∀ ω, (T fun i => W i ω) = ∑ i, T (Pi.single i 1) * W i ω := fun ω => by
      have e1 : (fun i => W i ω) = ∑ i, W i ω • (Pi.single i 1 : ι → ℝ) := by
        ext a
        simp [Finset.sum_apply, Pi.single_apply]
      rw [e1, map_sum]
      simp only [map_smul, smul_eq_mul, mul_comm]
    simp only [e]
    exact Combination.sum Finset.univ fun i _ => (hW i).smul _
  obtain ⟨v, hv⟩ := h.normal _ hcomb
  refine ⟨0, v, ?_⟩
  rw [AEMeasurable.map_map_of_aemeasurable (by fun_prop) hm]
  exact hv

theorem cov_combinations [IsProbabilityMeasure ℙ] (h : NormalDraws ℙ rng) {X Y : Ω → ℝ} (hX : Combination rng X) (hY : Combination rng Y) :
    covariance X Y ℙ = ∫ ω, X ω * Y ω ∂ℙ := by
  rw [covariance_eq_sub (hX.memLp h.toFairDraws) (hY.memLp h.toFairDraws), hX.mean_zero h.toFairDraws, zero_mul, sub_zero]
  rfl

/-- The law of a combination. -/
theorem law_combination (h : NormalDraws ℙ rng) {X : Ω → ℝ} (hX : Combination rng X) {c : NNReal} (hv : ∫ ω, X ω * X ω ∂ℙ = c) :
    ℙ.map X = gaussianReal 0 c := by
  obtain ⟨v, hlaw⟩ := h.normal X hX
  have hm : AEMeasurable X ℙ := AEMeasurable.of_map_ne_zero (by rw [hlaw]; exact NeZero.ne _)
  have hvc : (v : ℝ) = c := by
    rw [← hv, ← integral_map (φ := X) (f := fun t => t * t) hm (by fun_prop), hlaw]
    have := variance_fun_id_gaussianReal (μ := 0) (v := v)
    rw [variance_eq_integral (by fun_prop)] at this
    simp only [integral_id_gaussianReal, sub_zero, sq] at this
    exact this.symm
  rw [hlaw, NNReal.coe_injective hvc]

/-- Uncorrelated combinations of variance one are independent standard normal numbers. -/
theorem white_law [IsProbabilityMeasure ℙ] (h : NormalDraws ℙ rng) {ι : Type} [Fintype ι] [DecidableEq ι] {W : ι → Ω → ℝ}
    (hW : ∀ i, Combination rng (W i)) (hc : ∀ i j, ∫ ω, W i ω * W j ω ∂ℙ = if i = j then 1 else 0) :
    ℙ.map (fun ω i => W i ω) = Measure.pi fun _ => gaussianReal 0 1 := by
  have hi : iIndepFun W ℙ := (gaussian_of_combinations h hW).iIndepFun_of_covariance_eq_zero fun i j hij => by
    rw [cov_combinations h (hW i) (hW j), hc, if_neg hij]
  rw [(iIndepFun_iff_map_fun_eq_pi_map fun i => ((hW i).memLp h.toFairDraws).1.aemeasurable).1 hi]
  congr 1
  funext i
  exact law_combination h (hW i) (by rw [hc, if_pos rfl]; rfl)

/-- The sum of their squares, whatever they are counted by. -/
theorem white_chiSquare [IsProbabilityMeasure ℙ] (h : NormalDraws ℙ rng) {ι : Type} [Fintype ι] [DecidableEq ι] {W : ι → Ω → ℝ}
    (hW : ∀ i, Combination rng (W i)) (hc : ∀ i j, ∫ ω, W i ω * W j ω ∂ℙ = if i = j then 1 else 0) {n : ℕ} (e : Fin n ≃ ι) :
    ℙ.map (fun ω => ∑ i, W i ω ^ 2) = chiSquare n := by
  have h1 := white_law h (W := fun a => W (e a)) (fun a => hW (e a)) fun a b => by
    rw [hc]
    simp
  rw [chiSquare, ← h1, AEMeasurable.map_map_of_aemeasurable
    (Finset.measurable_sum _ fun a _ => (measurable_pi_apply a).pow_const 2).aemeasurable
    (aemeasurable_pi_lambda _ fun a => ((hW (e a)).memLp h.toFairDraws).1.aemeasurable)]
  congr 1
  funext ω
  exact (Equiv.sum_comp e fun i => W i ω ^ 2).symm

open scoped MatrixOrder in
/-- A matrix that makes vectors of covariance `C` white. -/
theorem exists_whitener {p : ℕ} {C : Matrix (Fin p) (Fin p) ℝ} (h : C.PosDef) :
    ∃ M : Matrix (Fin p) (Fin p) ℝ, Mᵀ * M = C⁻¹ ∧ M * C * Mᵀ = 1 := by
  obtain ⟨M, hM⟩ := CStarAlgebra.nonneg_iff_eq_star_mul_self.mp h.inv.posSemidef.nonneg
  have hM' : Mᵀ * M = C⁻¹ := hM.symm
  refine ⟨M, hM', ?_⟩
  have hu : IsUnit C.det := h.det_pos.ne'.isUnit
  have hd : IsUnit M.det := by
    have := congrArg det hM'
    rw [det_mul, det_transpose] at this
    have h2 : (C⁻¹).det ≠ 0 := h.inv.det_pos.ne'
    refine isUnit_iff_ne_zero.2 fun h0 => h2 ?_
    rw [← this, h0, zero_mul]
  have e : C = M⁻¹ * (Mᵀ)⁻¹ := by
    rw [← Matrix.mul_inv_rev, hM', nonsing_inv_nonsing_inv _ hu]
  rw [e, ← Matrix.mul_assoc, mul_nonsing_inv _ hd, Matrix.one_mul, nonsing_inv_mul _ (by rwa [det_transpose])]

theorem normalised_eq {p : ℕ} {C M : Matrix (Fin p) (Fin p) ℝ} (hM : Mᵀ * M = C⁻¹) (e : Fin p → ℝ) :
    e ⬝ᵥ C⁻¹ *ᵥ e = ∑ a, (M *ᵥ e) a ^ 2 := by
  rw [← hM, ← mulVec_mulVec, dotProduct_mulVec, vecMul_transpose, dotProduct]
  exact Finset.sum_congr rfl fun a _ => (sq _).symm

end Verif
