import Verif.Model.Transforms
import Mathlib.Probability.StrongLaw
import Mathlib.Probability.HasLaw

/-! Sample means and sample covariances of independent, identically distributed draws. -/

namespace Verif

open MeasureTheory ProbabilityTheory Filter Topology

variable {Ω 𝓧 : Type*} [MeasurableSpace Ω] [MeasurableSpace 𝓧] {p : Measure Ω} {ν : Measure 𝓧} {X : ℕ → Ω → 𝓧}

/-- The sample covariance by raw moments. -/
theorem covEntry_raw {N : ℕ} (hN : N ≠ 0) (a b : Fin N → ℝ) :
    covEntry a b = (∑ k, a k * b k - (∑ k, a k) * (∑ k, b k) / N) * (1 / (N - 1)) := by
  have hN' : (N : ℝ) ≠ 0 := Nat.cast_ne_zero.2 hN
  unfold covEntry
  congr 1
  set A := ∑ l, a l
  set B := ∑ l, b l
  have : ∀ k, (a k - A / N) * (b k - B / N) = a k * b k - a k * (B / N) - A / N * b k + A / N * (B / N) := fun k => by ring
  simp only [this, Finset.sum_add_distrib, Finset.sum_sub_distrib, ← Finset.sum_mul, ← Finset.mul_sum, Finset.sum_const,
    Finset.card_univ, Fintype.card_fin, nsmul_eq_mul]
  change _ - A * _ - _ * B + _ = _
  field_simp
  ring

theorem identDistrib_comp (hX : ∀ i, HasLaw (X i) ν p) {φ : 𝓧 → ℝ} (hφ : Measurable φ) (i j : ℕ) :
    IdentDistrib (fun ω => φ (X i ω)) (fun ω => φ (X j ω)) p p := by
  have : IdentDistrib (X i) (X j) p p := ⟨(hX i).aemeasurable, (hX j).aemeasurable, (hX i).map_eq.trans (hX j).map_eq.symm⟩
  exact this.comp hφ

theorem integrable_draw (hX : ∀ i, HasLaw (X i) ν p) {φ : 𝓧 → ℝ} (hφ : Integrable φ ν) (i : ℕ) : Integrable (fun ω => φ (X i ω)) p := by
  rw [← (hX i).map_eq] at hφ
  exact hφ.comp_aemeasurable (hX i).aemeasurable

theorem integral_draw (hX : ∀ i, HasLaw (X i) ν p) {φ : 𝓧 → ℝ} (hφ : Measurable φ) (i : ℕ) : ∫ ω, φ (X i ω) ∂p = ∫ x, φ x ∂ν :=
  (hX i).integral_comp hφ.aestronglyMeasurable

/-- The strong law of large numbers. -/
theorem mean_tendsto (hX : ∀ i, HasLaw (X i) ν p) (hind : Pairwise fun i j => X i ⟂ᵢ[p] X j) {φ : 𝓧 → ℝ} (hφ : Measurable φ)
    (hi : Integrable φ ν) : ∀ᵐ ω ∂p, Tendsto (fun N : ℕ => (∑ k : Fin N, φ (X k ω)) / N) atTop (𝓝 (∫ x, φ x ∂ν)) := by
  have h := strong_law_ae_real (fun i ω => φ (X i ω)) (integrable_draw hX hi 0) (fun i j hij => (hind hij).comp hφ hφ)
    fun i => identDistrib_comp hX hφ i 0
  rw [integral_draw hX hφ] at h
  filter_upwards [h] with ω hω
  simpa only [Finset.sum_range] using hω

theorem integral_cov [IsProbabilityMeasure ν] {φ ψ : 𝓧 → ℝ} (h1 : MemLp φ 2 ν) (h2 : MemLp ψ 2 ν) :
    ∫ x, (φ x - ∫ y, φ y ∂ν) * (ψ x - ∫ y, ψ y ∂ν) ∂ν = ∫ x, φ x * ψ x ∂ν - (∫ y, φ y ∂ν) * ∫ y, ψ y ∂ν := by
  have := covariance_eq_sub h1 h2
  rw [covariance] at this
  exact this

/-- The sample covariance converges. -/
theorem cov_tendsto [IsProbabilityMeasure ν] (hX : ∀ i, HasLaw (X i) ν p) (hind : Pairwise fun i j => X i ⟂ᵢ[p] X j) {φ ψ : 𝓧 → ℝ} (hφ : Measurable φ)
    (hψ : Measurable ψ) (h1 : MemLp φ 2 ν) (h2 : MemLp ψ 2 ν) :
    ∀ᵐ ω ∂p, Tendsto (fun N : ℕ => covEntry (fun k : Fin N => φ (X k ω)) fun k => ψ (X k ω)) atTop
      (𝓝 (∫ x, (φ x - ∫ y, φ y ∂ν) * (ψ x - ∫ y, ψ y ∂ν) ∂ν)) := by
  rw [integral_cov h1 h2]
  filter_upwards [mean_tendsto hX hind hφ (h1.integrable (by norm_num)), mean_tendsto hX hind hψ (h2.integrable (by norm_num)),
    mean_tendsto hX hind (hφ.mul hψ) (h1.integrable_mul h2)] with ω a b c
  have hN : Tendsto (fun N : ℕ => (N : ℝ) / (N - 1)) atTop (𝓝 1) := by
    have h := tendsto_natCast_div_add_atTop (𝕜 := ℝ) (-1)
    simpa only [sub_eq_add_neg] using h
  have h := ((c.sub (a.mul b)).mul hN)
  rw [mul_one] at h
  refine h.congr' ?_
  filter_upwards [eventually_gt_atTop 1] with N hN1
  rw [covEntry_raw (by omega)]
  have h0 : (N : ℝ) ≠ 0 := by positivity
  have h1' : (N : ℝ) - 1 ≠ 0 := by
    have : (1 : ℝ) < N := by exact_mod_cast hN1
    linarith
  simp only [Pi.mul_apply]
  field_simp

/-- The sample mean is unbiased. -/
theorem mean_unbiased (hX : ∀ i, HasLaw (X i) ν p) {φ : 𝓧 → ℝ} (hφ : Measurable φ) (hi : Integrable φ ν) {N : ℕ} (hN : N ≠ 0) :
    ∫ ω, (∑ k : Fin N, φ (X k ω)) / N ∂p = ∫ x, φ x ∂ν := by
  rw [integral_div, integral_finsetSum Finset.univ fun (k : Fin N) _ => integrable_draw hX hi k]
  simp only [integral_draw hX hφ, Finset.sum_const, Finset.card_univ, Fintype.card_fin, nsmul_eq_mul]
  field_simp

/-- The sample covariance is unbiased. -/
theorem cov_unbiased [IsProbabilityMeasure ν] (hX : ∀ i, HasLaw (X i) ν p) (hind : Pairwise fun i j => X i ⟂ᵢ[p] X j) {φ ψ : 𝓧 → ℝ}
    (hφ : Measurable φ) (hψ : Measurable ψ) (h1 : MemLp φ 2 ν) (h2 : MemLp ψ 2 ν) {N : ℕ} (hN : 2 ≤ N) :
    ∫ ω, covEntry (fun k : Fin N => φ (X k ω)) (fun k => ψ (X k ω)) ∂p =
      ∫ x, (φ x - ∫ y, φ y ∂ν) * (ψ x - ∫ y, ψ y ∂ν) ∂ν := by
  rw [integral_cov h1 h2]
  have i1 := h1.integrable (by norm_num : (1 : ENNReal) ≤ 2)
  have i2 := h2.integrable (by norm_num : (1 : ENNReal) ≤ 2)
  have i12 : Integrable (fun x => φ x * ψ x) ν := h1.integrable_mul h2
  set E1 := ∫ y, φ y ∂ν with hE1
  set E2 := ∫ y, ψ y ∂ν with hE2
  set E := ∫ y, φ y * ψ y ∂ν with hE
  have hoff : ∀ k l : ℕ, k ≠ l → Integrable (fun ω => φ (X k ω) * ψ (X l ω)) p ∧ ∫ ω, φ (X k ω) * ψ (X l ω) ∂p = E1 * E2 := fun k l hkl => by
    have hi := (hind hkl).comp hφ hψ
    refine ⟨hi.integrable_mul (integrable_draw hX i1 k) (integrable_draw hX i2 l), ?_⟩
    have := hi.integral_fun_mul_eq_mul_integral (integrable_draw hX i1 k).aestronglyMeasurable (integrable_draw hX i2 l).aestronglyMeasurable
    simp only [Function.comp_apply] at this
    rw [this, integral_draw hX hφ, integral_draw hX hψ]
  have hon : ∀ k : ℕ, Integrable (fun ω => φ (X k ω) * ψ (X k ω)) p ∧ ∫ ω, φ (X k ω) * ψ (X k ω) ∂p = E := fun k =>
    ⟨integrable_draw hX i12 k, integral_draw hX (hφ.mul hψ) k⟩
  have hint : ∀ k l : ℕ, Integrable (fun ω => φ (X k ω) * ψ (X l ω)) p := fun k l => by
    by_cases h : k = l
    · rw [h]; exact (hon l).1
    · exact (hoff k l h).1
  have hraw : ∀ ω, covEntry (fun k : Fin N => φ (X k ω)) (fun k => ψ (X k ω)) =
      (∑ k : Fin N, φ (X k ω) * ψ (X k ω) - (∑ k : Fin N, ∑ l : Fin N, φ (X k ω) * ψ (X l ω)) / N) * (1 / (N - 1)) := fun ω => by
    rw [covEntry_raw (by omega), Finset.sum_mul_sum]
  simp only [hraw]
  have s1 : Integrable (fun ω => ∑ k : Fin N, φ (X k ω) * ψ (X k ω)) p := integrable_finsetSum Finset.univ fun (k : Fin N) _ => (hon k).1
  have s2 : Integrable (fun ω => (∑ k : Fin N, ∑ l : Fin N, φ (X k ω) * ψ (X l ω)) / N) p :=
    (integrable_finsetSum Finset.univ fun (k : Fin N) _ => integrable_finsetSum Finset.univ fun (l : Fin N) _ => hint k l).div_const _
  rw [integral_mul_const, integral_sub s1 s2, integral_div, integral_finsetSum Finset.univ fun (k : Fin N) _ => (hon k).1,
    integral_finsetSum Finset.univ fun (k : Fin N) _ => integrable_finsetSum Finset.univ fun (l : Fin N) _ => hint k l]
  have e : ∀ k : Fin N, ∫ ω, ∑ l : Fin N, φ (X k ω) * ψ (X l ω) ∂p = E + (N - 1) * (E1 * E2) := fun k => by
    rw [integral_finsetSum Finset.univ fun (l : Fin N) _ => hint k l, ← Finset.add_sum_erase _ _ (Finset.mem_univ k), (hon k).2]
    congr 1
    rw [Finset.sum_congr rfl fun (l : Fin N) hl => (hoff k l fun h => (Finset.ne_of_mem_erase hl) (Fin.ext h.symm)).2, Finset.sum_const,
      Finset.card_erase_of_mem (Finset.mem_univ k), Finset.card_univ, Fintype.card_fin, nsmul_eq_mul, Nat.cast_sub (by omega), Nat.cast_one]
  simp only [e, fun k : Fin N => (hon k).2, Finset.sum_const, Finset.card_univ, Fintype.card_fin, nsmul_eq_mul]
  have h0 : (N : ℝ) ≠ 0 := by positivity
  have h1' : (N : ℝ) - 1 ≠ 0 := by
    have : (2 : ℝ) ≤ N := by exact_mod_cast hN
    linarith
  field_simp
  ring

end Verif
