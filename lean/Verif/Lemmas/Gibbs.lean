import Verif.Lemmas.Bayes
import Verif.Lemmas.Cholesky
import Mathlib.Analysis.Matrix.Spectrum
import Mathlib.Analysis.Matrix.PosDef
import Mathlib.Analysis.SpecialFunctions.Log.Basic

/-! Gibbs' inequality for covariance matrices. -/

namespace Verif

open Matrix

variable {n : ℕ}

/-- A root of a positive definite matrix. -/
theorem exists_inv_root {D : Matrix (Fin n) (Fin n) ℝ} (hD : D.PosDef) : ∃ S : Matrix (Fin n) (Fin n) ℝ, D⁻¹ = S * Sᵀ ∧ IsUnit S.det := by
  obtain ⟨B, hB'⟩ := exists_upperChol hD.inv
  have hB := hB'.mul_eq.symm
  refine ⟨Bᵀ, by rw [transpose_transpose]; exact hB, ?_⟩
  have h1 := hD.inv.det_pos
  rw [hB, det_mul] at h1
  exact isUnit_iff_ne_zero.2 fun h => by
    rw [det_transpose] at h
    rw [h, mul_zero] at h1
    exact lt_irrefl _ h1

theorem trace_posSemidef_nonneg {D M : Matrix (Fin n) (Fin n) ℝ} (hD : D.PosDef) (hM : ∀ u, 0 ≤ quad M u) : 0 ≤ (D⁻¹ * M).trace := by
  obtain ⟨S, hS, -⟩ := exists_inv_root hD
  rw [hS, Matrix.mul_assoc, trace_mul_comm, Matrix.trace]
  refine Finset.sum_nonneg fun i _ => ?_
  have := hM fun j => S j i
  rw [quad] at this
  have e : (Sᵀ * M * S) i i = (fun j => S j i) ⬝ᵥ M *ᵥ fun j => S j i := by
    rw [Matrix.mul_assoc, Matrix.mul_apply, dotProduct]
    exact Finset.sum_congr rfl fun j _ => rfl
  rw [diag_apply, e]
  exact this

private theorem log_le {l : ℝ} (hl : 0 < l) : Real.log l ≤ l - 1 := Real.log_le_sub_one_of_pos hl

/-- A positive definite matrix with trace minus logarithm of the determinant at most `n` is the identity. -/
theorem trace_log_det {X : Matrix (Fin n) (Fin n) ℝ} (hX : X.PosDef) :
    (n : ℝ) + Real.log X.det ≤ X.trace ∧ (X ≠ 1 → (n : ℝ) + Real.log X.det < X.trace) := by
  have hpos := fun i => hX.eigenvalues_pos i
  have ht : X.trace = ∑ i, hX.1.eigenvalues i := by
    have := hX.1.trace_eq_sum_eigenvalues
    simpa using this
  have hd : Real.log X.det = ∑ i, Real.log (hX.1.eigenvalues i) := by
    have := hX.1.det_eq_prod_eigenvalues
    rw [this, ← Real.log_prod fun i _ => (hpos i).ne']
    simp
  have hn : (n : ℝ) = ∑ _i : Fin n, (1 : ℝ) := by simp
  rw [ht, hd, hn, ← Finset.sum_add_distrib]
  constructor
  · exact Finset.sum_le_sum fun i _ => by linarith [log_le (hpos i)]
  · intro hne
    have : ∃ i, hX.1.eigenvalues i ≠ 1 := by
      by_contra hall
      push Not at hall
      refine hne ?_
      have hs := hX.1.spectral_theorem
      have hone : (RCLike.ofReal ∘ hX.1.eigenvalues : Fin n → ℝ) = fun _ => 1 := funext fun i => by simp [hall i]
      rw [hone] at hs
      rw [hs]
      simp [diagonal_one]
    obtain ⟨i, hi⟩ := this
    refine Finset.sum_lt_sum (fun i _ => by linarith [log_le (hpos i)]) ⟨i, Finset.mem_univ i, ?_⟩
    linarith [Real.log_lt_sub_one_of_pos (hpos i) hi]

/-- **Gibbs' inequality.** The expected negative log density of an estimate with covariance `D` and second moments `M ≥ C` of its error
is at least that of one with covariance `C` and second moments `C`, and larger if `D ≠ C`. -/
theorem gibbs {C D M : Matrix (Fin n) (Fin n) ℝ} (hC : C.PosDef) (hD : D.PosDef) (hM : ∀ u, quad C u ≤ quad M u) :
    Real.log C.det + n ≤ Real.log D.det + (D⁻¹ * M).trace ∧ (D ≠ C → Real.log C.det + n < Real.log D.det + (D⁻¹ * M).trace) := by
  obtain ⟨S, hS, hu⟩ := exists_inv_root hD
  have h1 : (D⁻¹ * C).trace ≤ (D⁻¹ * M).trace := by
    have := trace_posSemidef_nonneg (M := M - C) hD fun u => by
      rw [quad, sub_mulVec, dotProduct_sub]
      exact sub_nonneg.2 (hM u)
    rw [Matrix.mul_sub, trace_sub] at this
    linarith
  have hX : (Sᵀ * C * S).PosDef := by
    have hinj : Function.Injective S.mulVec := Matrix.mulVec_injective_of_isUnit ((Matrix.isUnit_iff_isUnit_det S).2 hu)
    have := hC.conjTranspose_mul_mul_same (B := S) hinj
    simpa using this
  have ht : (Sᵀ * C * S).trace = (D⁻¹ * C).trace := by rw [hS, Matrix.mul_assoc, trace_mul_comm, Matrix.mul_assoc, trace_mul_comm, Matrix.mul_assoc]
  have hdet : Real.log (Sᵀ * C * S).det = Real.log C.det - Real.log D.det := by
    have e : S.det * S.det = D.det⁻¹ := by
      have := congrArg Matrix.det hS
      rw [det_mul, det_transpose, Matrix.det_nonsing_inv, Ring.inverse_eq_inv'] at this
      exact this.symm
    rw [det_mul, det_mul, det_transpose, show S.det * C.det * S.det = C.det * (S.det * S.det) by ring, e,
      Real.log_mul hC.det_pos.ne' (inv_ne_zero hD.det_pos.ne'), Real.log_inv]
    ring
  have h2 := trace_log_det hX
  rw [ht, hdet] at h2
  refine ⟨by linarith [h2.1], fun hne => ?_⟩
  have := h2.2 fun h => hne ?_
  · linarith
  · -- from `Sᵀ C S = 1`: `C = (S Sᵀ)⁻¹ = D`
    have hSu : IsUnit S.det := hu
    have hTu : IsUnit (Sᵀ).det := by rwa [det_transpose]
    have e : C = (S * Sᵀ)⁻¹ := by
      rw [Matrix.mul_inv_rev]
      have : (Sᵀ)⁻¹ * (Sᵀ * C * S) * S⁻¹ = (Sᵀ)⁻¹ * 1 * S⁻¹ := by rw [h]
      rw [Matrix.mul_one] at this
      rw [← this, Matrix.mul_assoc Sᵀ, Matrix.nonsing_inv_mul_cancel_left _ _ hTu, Matrix.mul_assoc, Matrix.mul_nonsing_inv _ hSu, Matrix.mul_one]
    rw [e, ← hS, Matrix.nonsing_inv_nonsing_inv _ (isUnit_iff_ne_zero.2 hD.det_pos.ne')]

end Verif
