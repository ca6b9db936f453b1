import Verif.Lemmas.Curvature
import Verif.Props.Accuracy

/-! The unscented transform of functions of bounded curvature. -/

namespace Verif

open Matrix

/-- The Cauchy–Schwarz inequality for weighted sums. -/
theorem abs_wsum_le {ι : Type*} (s : Finset ι) {w : ℝ} (hw : 0 ≤ w) (f g : ι → ℝ) :
    |∑ a ∈ s, w * (f a * g a)| ≤ Real.sqrt (∑ a ∈ s, w * f a ^ 2) * Real.sqrt (∑ a ∈ s, w * g a ^ 2) := by
  rw [← Real.sqrt_mul (Finset.sum_nonneg fun a _ => by positivity)]
  refine Real.abs_le_sqrt ?_
  rw [← Finset.mul_sum, ← Finset.mul_sum, ← Finset.mul_sum]
  nlinarith [Finset.sum_mul_sq_le_sq_mul_sq s f g, sq_nonneg w]

variable {n k : ℕ} {F : (Fin n → ℝ) → Fin k → ℝ} {F' : (Fin n → ℝ) → (Fin n → ℝ) →L[ℝ] (Fin k → ℝ)} {K : Fin k → ℝ}

/-- The displacements of the sigma points other than the centre. -/
noncomputable def sigmaDisp (L : Matrix (Fin n) (Fin n) ℝ) (s : ℝ) : Fin n ⊕ Fin n → Fin n → ℝ
  | .inl r => fun j => s * L r j
  | .inr r => fun j => -(s * L r j)

section

variable {L C : Matrix (Fin n) (Fin n) ℝ} {c w : ℝ} (hc : 0 < c) (hL : Lᵀ * L = C) (hw : w = 1 / (2 * c))
include hc hL hw

theorem disp_second (i j : Fin n) :
    ∑ a, w * (sigmaDisp L (Real.sqrt c) a i * sigmaDisp L (Real.sqrt c) a j) = C i j := by
  rw [Fintype.sum_sum_type, ← Finset.sum_add_distrib, ← hL, Matrix.mul_apply]
  refine Finset.sum_congr rfl fun r _ => ?_
  have hs := Real.mul_self_sqrt hc.le
  simp only [sigmaDisp, transpose_apply]
  have : w * (√c * L r i * (√c * L r j)) + w * (-(√c * L r i) * -(√c * L r j)) = 2 * w * (√c * √c) * (L r i * L r j) := by ring
  rw [this, hs, hw]
  field_simp

theorem disp_total : ∑ a, w * ∑ j, sigmaDisp L (Real.sqrt c) a j ^ 2 = C.trace := by
  rw [trace, Finset.sum_congr rfl fun a _ => Finset.mul_sum _ _ _, Finset.sum_comm]
  refine Finset.sum_congr rfl fun j _ => ?_
  rw [diag_apply, ← disp_second hc hL hw j j]
  simp only [sq]

theorem disp_fourth : ∑ a, w * (∑ j, sigmaDisp L (Real.sqrt c) a j ^ 2) ^ 2 ≤ c * C.trace ^ 2 := by
  have hw0 : 0 < w := by rw [hw]; positivity
  have hq : ∀ r, ∑ j, sigmaDisp L (Real.sqrt c) (.inl r) j ^ 2 = c * ∑ j, L r j ^ 2 ∧
      ∑ j, sigmaDisp L (Real.sqrt c) (.inr r) j ^ 2 = c * ∑ j, L r j ^ 2 := fun r => by
    simp only [sigmaDisp, neg_sq, mul_pow, Real.sq_sqrt hc.le, ← Finset.mul_sum, and_self]
  have ht : C.trace = ∑ r, ∑ j, L r j ^ 2 := by
    rw [← disp_total hc hL hw, Fintype.sum_sum_type]
    simp only [hq]
    rw [← Finset.sum_add_distrib]
    refine Finset.sum_congr rfl fun r _ => ?_
    rw [hw]; field_simp; ring
  rw [Fintype.sum_sum_type]
  simp only [hq]
  rw [← Finset.sum_add_distrib]
  have e : ∀ r, w * (c * ∑ j, L r j ^ 2) ^ 2 + w * (c * ∑ j, L r j ^ 2) ^ 2 = c * (∑ j, L r j ^ 2) ^ 2 := fun r => by
    rw [hw]; field_simp; ring
  rw [Finset.sum_congr rfl fun r _ => e r, ← Finset.mul_sum, ht]
  refine mul_le_mul_of_nonneg_left ?_ hc.le
  exact Finset.sum_sq_le_sq_sum_of_nonneg fun r _ => Finset.sum_nonneg fun j _ => sq_nonneg _

end

theorem disp_first (L : Matrix (Fin n) (Fin n) ℝ) (s w : ℝ) (T : (Fin n → ℝ) →L[ℝ] (Fin k → ℝ)) (i : Fin k) :
    ∑ a, w * T (sigmaDisp L s a) i = 0 := by
  rw [Fintype.sum_sum_type, ← Finset.sum_add_distrib]
  refine Finset.sum_eq_zero fun r _ => ?_
  have : sigmaDisp L s (.inr r) = -sigmaDisp L s (.inl r) := rfl
  rw [this, map_neg, Pi.neg_apply]
  ring

/-! ### The moments the unscented transform computes -/

section

variable (alpha beta kappa : ℝ) (μ : Fin n → ℝ) (L : Matrix (Fin n) (Fin n) ℝ) (F F')

/-- What the linearisation misses at a sigma point. -/
noncomputable def sigmaRem (s : ℝ) (a : Fin n ⊕ Fin n) (i : Fin k) : ℝ :=
  F (μ + sigmaDisp L s a) i - F μ i - F' μ (sigmaDisp L s a) i

variable (n) in
/-- The weight of the sigma points other than the centre. -/
noncomputable def sigmaW : ℝ := 1 / (2 * (alpha * alpha * (n + kappa)))

/-- A sum over all sigma points: the centre and the others. -/
theorem sum_sigma (wt : Fin (1 + n + n) → ℝ) (w0 w : ℝ) (h0 : wt (Fin.castAdd n (Fin.castAdd n 0)) = w0)
    (h1 : ∀ r, wt (Fin.castAdd n (Fin.natAdd 1 r)) = w) (h2 : ∀ r, wt (Fin.natAdd (1 + n) r) = w) (s : ℝ) (φ : (Fin n → ℝ) → ℝ) :
    ∑ l, wt l * φ (sigmaMat μ L s l) = w0 * φ μ + ∑ a, w * φ (μ + sigmaDisp L s a) := by
  rw [sum_ut, Fintype.sum_sum_type, add_assoc]
  simp only [h0, h1, h2, sigmaMat_centre, sigmaMat_plus, sigmaMat_minus]
  rfl

private theorem lam (n : ℕ) (alpha kappa : ℝ) : (n : ℝ) + (alpha * alpha * (n + kappa) - n) = alpha * alpha * (n + kappa) := by ring

theorem sum_mean_sigma (s : ℝ) (φ : (Fin n → ℝ) → ℝ) :
    ∑ l, UT.meanWeights n alpha kappa l * φ (sigmaMat μ L s l) =
      (alpha * alpha * (n + kappa) - n) / (alpha * alpha * (n + kappa)) * φ μ +
        ∑ a, sigmaW n alpha kappa * φ (μ + sigmaDisp L s a) := by
  refine sum_sigma μ L _ _ _ ?_ (fun r => ?_) (fun r => ?_) s φ <;> simp [UT.meanWeights, sigmaW, Nat.add_eq_zero_iff]

theorem sum_cov_sigma (s : ℝ) (φ : (Fin n → ℝ) → ℝ) :
    ∑ l, UT.covWeights n alpha beta kappa l * φ (sigmaMat μ L s l) =
      ((alpha * alpha * (n + kappa) - n) / (alpha * alpha * (n + kappa)) + (1 - alpha * alpha + beta)) * φ μ +
        ∑ a, sigmaW n alpha kappa * φ (μ + sigmaDisp L s a) := by
  refine sum_sigma μ L _ _ _ ?_ (fun r => ?_) (fun r => ?_) s φ <;> simp [UT.covWeights, sigmaW, Nat.add_eq_zero_iff]

variable {alpha kappa}

private theorem total (_hc : 0 < alpha * alpha * (n + kappa)) : ∑ _a : Fin n ⊕ Fin n, sigmaW n alpha kappa = n / (alpha * alpha * (n + kappa)) := by
  rw [Finset.sum_const, Finset.card_univ, Fintype.card_sum, Fintype.card_fin, nsmul_eq_mul, sigmaW]
  push_cast
  field_simp
  ring

/-- The unscented mean is the value at the mean plus the weighted remainders. -/
theorem ut_mean_rem (hc : 0 < alpha * alpha * (n + kappa)) (s : ℝ) (i : Fin k) :
    ∑ l, UT.meanWeights n alpha kappa l * F (sigmaMat μ L s l) i =
      F μ i + ∑ a, sigmaW n alpha kappa * sigmaRem F F' μ L s a i := by
  rw [sum_mean_sigma alpha kappa μ L s fun x => F x i]
  have e : ∀ a, sigmaW n alpha kappa * F (μ + sigmaDisp L s a) i = sigmaW n alpha kappa * F μ i +
      sigmaW n alpha kappa * F' μ (sigmaDisp L s a) i + sigmaW n alpha kappa * sigmaRem F F' μ L s a i := fun a => by
    unfold sigmaRem; ring
  rw [Finset.sum_congr rfl fun a _ => e a, Finset.sum_add_distrib, Finset.sum_add_distrib, disp_first, ← Finset.sum_mul, total hc]
  have h0 : (alpha * alpha * (n + kappa) - n) / (alpha * alpha * (n + kappa)) + n / (alpha * alpha * (n + kappa)) = 1 := by
    rw [← add_div, sub_add_cancel, div_self hc.ne']
  linear_combination F μ i * h0

/-- The second moments of the linear part over the sigma points. -/
theorem disp_lin {C : Matrix (Fin n) (Fin n) ℝ} (hc : 0 < alpha * alpha * (n + kappa)) (hL : Lᵀ * L = C) (i j : Fin k) :
    ∑ a, sigmaW n alpha kappa * (F' μ (sigmaDisp L (Real.sqrt (alpha * alpha * (n + kappa))) a) i *
      F' μ (sigmaDisp L (Real.sqrt (alpha * alpha * (n + kappa))) a) j) = (jacMat (F' μ) * C * (jacMat (F' μ))ᵀ) i j := by
  have h2 := disp_second hc hL (w := sigmaW n alpha kappa) rfl
  set s := Real.sqrt (alpha * alpha * (n + kappa)) with hs
  set w := sigmaW n alpha kappa with hw
  have e : ∀ a, w * (F' μ (sigmaDisp L s a) i * F' μ (sigmaDisp L s a) j) =
      ∑ p, ∑ q, jacMat (F' μ) i p * (w * (sigmaDisp L s a p * sigmaDisp L s a q)) * jacMat (F' μ) j q := fun a => by
    rw [lin_coords, lin_coords, Finset.sum_mul_sum, Finset.mul_sum]
    refine Finset.sum_congr rfl fun p _ => ?_
    rw [Finset.mul_sum]
    exact Finset.sum_congr rfl fun q _ => by ring
  rw [Finset.sum_congr rfl fun a _ => e a, Finset.sum_comm, Matrix.mul_assoc, Matrix.mul_apply]
  refine Finset.sum_congr rfl fun p _ => ?_
  rw [Finset.sum_comm, Matrix.mul_apply, Finset.mul_sum]
  refine Finset.sum_congr rfl fun q _ => ?_
  rw [← Finset.sum_mul, ← Finset.mul_sum, h2, transpose_apply]
  ring

/-- The unscented covariance of the value. -/
theorem ut_cov_rem {C : Matrix (Fin n) (Fin n) ℝ} (hc : 0 < alpha * alpha * (n + kappa)) (hL : Lᵀ * L = C) (i j : Fin k) (m : Fin k → ℝ)
    (hm : ∀ i, m i = F μ i + ∑ a, sigmaW n alpha kappa * sigmaRem F F' μ L (Real.sqrt (alpha * alpha * (n + kappa))) a i) :
    ∑ l, UT.covWeights n alpha beta kappa l * ((F (sigmaMat μ L (Real.sqrt (alpha * alpha * (n + kappa))) l) i - m i) *
        (F (sigmaMat μ L (Real.sqrt (alpha * alpha * (n + kappa))) l) j - m j)) =
      (jacMat (F' μ) * C * (jacMat (F' μ))ᵀ) i j +
      ∑ a, sigmaW n alpha kappa * (F' μ (sigmaDisp L (Real.sqrt (alpha * alpha * (n + kappa))) a) i *
        sigmaRem F F' μ L (Real.sqrt (alpha * alpha * (n + kappa))) a j) +
      ∑ a, sigmaW n alpha kappa * (sigmaRem F F' μ L (Real.sqrt (alpha * alpha * (n + kappa))) a i *
        F' μ (sigmaDisp L (Real.sqrt (alpha * alpha * (n + kappa))) a) j) +
      ∑ a, sigmaW n alpha kappa * (sigmaRem F F' μ L (Real.sqrt (alpha * alpha * (n + kappa))) a i *
        sigmaRem F F' μ L (Real.sqrt (alpha * alpha * (n + kappa))) a j) +
      (beta - alpha * alpha) * ((m i - F μ i) * (m j - F μ j)) := by
  rw [sum_cov_sigma alpha beta kappa μ L _ fun x => (F x i - m i) * (F x j - m j)]
  have ht := total hc
  have hl := disp_first L (Real.sqrt (alpha * alpha * (n + kappa))) (sigmaW n alpha kappa) (F' μ)
  set s := Real.sqrt (alpha * alpha * (n + kappa)) with hs
  set w := sigmaW n alpha kappa with hw
  have hlin := disp_lin F' μ L hc hL i j
  rw [← hs, ← hw] at hlin
  have hr : ∀ i, ∑ a, w * sigmaRem F F' μ L s a i = m i - F μ i := fun i => by rw [hm]; ring
  have e : ∀ a, w * ((F (μ + sigmaDisp L s a) i - m i) * (F (μ + sigmaDisp L s a) j - m j)) =
      w * (F' μ (sigmaDisp L s a) i * F' μ (sigmaDisp L s a) j) + w * (F' μ (sigmaDisp L s a) i * sigmaRem F F' μ L s a j) +
      w * (sigmaRem F F' μ L s a i * F' μ (sigmaDisp L s a) j) + w * (sigmaRem F F' μ L s a i * sigmaRem F F' μ L s a j) -
      (m i - F μ i) * (w * F' μ (sigmaDisp L s a) j) - (m j - F μ j) * (w * F' μ (sigmaDisp L s a) i) -
      (m i - F μ i) * (w * sigmaRem F F' μ L s a j) - (m j - F μ j) * (w * sigmaRem F F' μ L s a i) +
      w * ((m i - F μ i) * (m j - F μ j)) := fun a => by
    unfold sigmaRem; ring
  rw [Finset.sum_congr rfl fun a _ => e a]
  simp only [Finset.sum_add_distrib, Finset.sum_sub_distrib, ← Finset.mul_sum (a := m i - F μ i), ← Finset.mul_sum (a := m j - F μ j),
    hlin, hl, hr]
  rw [← Finset.sum_mul, ht]
  have h0 : (alpha * alpha * (n + kappa) - n) / (alpha * alpha * (n + kappa)) + n / (alpha * alpha * (n + kappa)) = 1 := by
    rw [← add_div, sub_add_cancel, div_self hc.ne']
  linear_combination (m i - F μ i) * (m j - F μ j) * h0

/-- The unscented covariance of argument and value. -/
theorem ut_cross_rem {C : Matrix (Fin n) (Fin n) ℝ} (hc : 0 < alpha * alpha * (n + kappa)) (hL : Lᵀ * L = C) (j : Fin n) (i : Fin k) (m : ℝ) :
    ∑ l, UT.covWeights n alpha beta kappa l * ((sigmaMat μ L (Real.sqrt (alpha * alpha * (n + kappa))) l j - μ j) *
        (F (sigmaMat μ L (Real.sqrt (alpha * alpha * (n + kappa))) l) i - m)) =
      (C * (jacMat (F' μ))ᵀ) j i +
      ∑ a, sigmaW n alpha kappa * (sigmaDisp L (Real.sqrt (alpha * alpha * (n + kappa))) a j *
        sigmaRem F F' μ L (Real.sqrt (alpha * alpha * (n + kappa))) a i) := by
  rw [sum_cov_sigma alpha beta kappa μ L _ fun x => (x j - μ j) * (F x i - m)]
  have h2 := disp_second hc hL (w := sigmaW n alpha kappa) rfl
  have hl := disp_first L (Real.sqrt (alpha * alpha * (n + kappa))) (sigmaW n alpha kappa) (ContinuousLinearMap.id ℝ (Fin n → ℝ)) j
  simp only [ContinuousLinearMap.id_apply] at hl
  set s := Real.sqrt (alpha * alpha * (n + kappa)) with hs
  set w := sigmaW n alpha kappa with hw
  have hlin : ∑ a, w * (sigmaDisp L s a j * F' μ (sigmaDisp L s a) i) = (C * (jacMat (F' μ))ᵀ) j i := by
    have e : ∀ a, w * (sigmaDisp L s a j * F' μ (sigmaDisp L s a) i) =
        ∑ q, (w * (sigmaDisp L s a j * sigmaDisp L s a q)) * jacMat (F' μ) i q := fun a => by
      rw [lin_coords, Finset.mul_sum, Finset.mul_sum]
      exact Finset.sum_congr rfl fun q _ => by ring
    rw [Finset.sum_congr rfl fun a _ => e a, Finset.sum_comm, Matrix.mul_apply]
    refine Finset.sum_congr rfl fun q _ => ?_
    rw [← Finset.sum_mul, h2, transpose_apply]
  have e : ∀ a, w * (((μ + sigmaDisp L s a) j - μ j) * (F (μ + sigmaDisp L s a) i - m)) =
      w * (sigmaDisp L s a j * F' μ (sigmaDisp L s a) i) + w * (sigmaDisp L s a j * sigmaRem F F' μ L s a i) +
      (F μ i - m) * (w * sigmaDisp L s a j) := fun a => by
    unfold sigmaRem; rw [Pi.add_apply]; ring
  rw [Finset.sum_congr rfl fun a _ => e a]
  simp only [Finset.sum_add_distrib, ← Finset.mul_sum (a := F μ i - m), hlin, hl]
  ring

end

/-! ### Bounds -/

section

variable {alpha beta kappa : ℝ} {μ : Fin n → ℝ} {L C : Matrix (Fin n) (Fin n) ℝ} (hF : CurvedAtMost F F' K)
  (hc : 0 < alpha * alpha * (n + kappa)) (hL : Lᵀ * L = C)
include hF

theorem sigmaRem_le (s : ℝ) (a : Fin n ⊕ Fin n) (i : Fin k) :
    |sigmaRem F F' μ L s a i| ≤ K i / 2 * ∑ j, sigmaDisp L s a j ^ 2 := hF.remainder μ (sigmaDisp L s a) i

include hc hL

theorem rem_sum_le (i : Fin k) :
    |∑ a, sigmaW n alpha kappa * sigmaRem F F' μ L (Real.sqrt (alpha * alpha * (n + kappa))) a i| ≤ K i / 2 * C.trace := by
  have hw : 0 ≤ sigmaW n alpha kappa := by unfold sigmaW; positivity
  rw [← disp_total hc hL (w := sigmaW n alpha kappa) rfl, Finset.mul_sum]
  refine (Finset.abs_sum_le_sum_abs _ _).trans (Finset.sum_le_sum fun a _ => ?_)
  rw [abs_mul, abs_of_nonneg hw]
  have := mul_le_mul_of_nonneg_left (sigmaRem_le (μ := μ) (L := L) hF (Real.sqrt (alpha * alpha * (n + kappa))) a i) hw
  linarith

theorem rem_sq_le (i : Fin k) (hK : 0 ≤ K i) (hC : 0 ≤ C.trace) :
    Real.sqrt (∑ a, sigmaW n alpha kappa * sigmaRem F F' μ L (Real.sqrt (alpha * alpha * (n + kappa))) a i ^ 2) ≤
      K i / 2 * (Real.sqrt (alpha * alpha * (n + kappa)) * C.trace) := by
  have hw : 0 ≤ sigmaW n alpha kappa := by unfold sigmaW; positivity
  rw [Real.sqrt_le_left (by positivity)]
  have h4 := mul_le_mul_of_nonneg_left (disp_fourth hc hL (w := sigmaW n alpha kappa) rfl) (sq_nonneg (K i / 2))
  rw [mul_pow, mul_pow, Real.sq_sqrt hc.le]
  refine le_trans ?_ h4
  rw [Finset.mul_sum]
  refine Finset.sum_le_sum fun a _ => ?_
  have h := abs_le.1 (sigmaRem_le (μ := μ) (L := L) hF (Real.sqrt (alpha * alpha * (n + kappa))) a i)
  have := mul_le_mul_of_nonneg_left (sq_le_sq' h.1 h.2) hw
  rw [mul_pow] at this
  linarith

end

end Verif
