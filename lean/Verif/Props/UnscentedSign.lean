import Verif.Props.Transforms
import Mathlib.Algebra.Order.Chebyshev

/-!
# When the unscented covariance is semidefinite for every function (C16, continued)
-/

namespace Verif

open Matrix

variable {n : ℕ} {alpha beta kappa : ℝ}

private theorem denom : (n : ℝ) + (alpha * alpha * (n + kappa) - n) = alpha ^ 2 * (n + kappa) := by ring

/-- The weighted sum of squares, block by block. -/
theorem weighted_squares (y : Fin (1 + n + n) → ℝ) :
    ∑ l, UT.covWeights n alpha beta kappa l * y l ^ 2 =
      ((alpha ^ 2 * (n + kappa) - n) / (alpha ^ 2 * (n + kappa)) + (1 - alpha ^ 2 + beta)) * y (Fin.castAdd n (Fin.castAdd n 0)) ^ 2 +
        1 / (2 * (alpha ^ 2 * (n + kappa))) *
          (∑ j, y (Fin.castAdd n (Fin.natAdd 1 j)) ^ 2 + ∑ j, y (Fin.natAdd (1 + n) j) ^ 2) := by
  have h0 : UT.covWeights n alpha beta kappa (Fin.castAdd n (Fin.castAdd n 0)) =
      (alpha ^ 2 * (n + kappa) - n) / (alpha ^ 2 * (n + kappa)) + (1 - alpha ^ 2 + beta) := by
    simp only [UT.covWeights, denom, Fin.val_castAdd, Fin.val_zero, if_true]
    ring
  have h1 : ∀ j : Fin n, UT.covWeights n alpha beta kappa (Fin.castAdd n (Fin.natAdd 1 j)) = 1 / (2 * (alpha ^ 2 * (n + kappa))) := by
    intro j
    simp only [UT.covWeights, denom, Fin.val_castAdd, Fin.val_natAdd]
    rw [if_neg (by omega)]
  have h2 : ∀ j : Fin n, UT.covWeights n alpha beta kappa (Fin.natAdd (1 + n) j) = 1 / (2 * (alpha ^ 2 * (n + kappa))) := by
    intro j
    simp only [UT.covWeights, denom, Fin.val_natAdd]
    rw [if_neg (by omega)]
  rw [sum_ut]
  simp only [h0, h1, h2, ← Finset.mul_sum]
  ring

theorem weighted_mean (y : Fin (1 + n + n) → ℝ) :
    UT.meanWeights n alpha kappa ⬝ᵥ y =
      (alpha ^ 2 * (n + kappa) - n) / (alpha ^ 2 * (n + kappa)) * y (Fin.castAdd n (Fin.castAdd n 0)) +
        1 / (2 * (alpha ^ 2 * (n + kappa))) *
          (∑ j, y (Fin.castAdd n (Fin.natAdd 1 j)) + ∑ j, y (Fin.natAdd (1 + n) j)) := by
  have h0 : UT.meanWeights n alpha kappa (Fin.castAdd n (Fin.castAdd n 0)) =
      (alpha ^ 2 * (n + kappa) - n) / (alpha ^ 2 * (n + kappa)) := by
    simp only [UT.meanWeights, denom, Fin.val_castAdd, Fin.val_zero, if_true]
    ring
  have h1 : ∀ j : Fin n, UT.meanWeights n alpha kappa (Fin.castAdd n (Fin.natAdd 1 j)) = 1 / (2 * (alpha ^ 2 * (n + kappa))) := by
    intro j
    simp only [UT.meanWeights, denom, Fin.val_castAdd, Fin.val_natAdd]
    rw [if_neg (by omega)]
  have h2 : ∀ j : Fin n, UT.meanWeights n alpha kappa (Fin.natAdd (1 + n) j) = 1 / (2 * (alpha ^ 2 * (n + kappa))) := by
    intro j
    simp only [UT.meanWeights, denom, Fin.val_natAdd]
    rw [if_neg (by omega)]
  rw [dotProduct, sum_ut]
  simp only [h0, h1, h2, ← Finset.mul_sum]
  ring

/-- The variance assigned to the values `y` at the sigma points. -/
theorem weighted_form_one (y : Fin (1 + n + n) → ℝ) :
    (y ᵥ* ((UT.wLeft (UT.meanWeights n alpha kappa))ᵀ * diagonal (UT.covWeights n alpha beta kappa) *
        UT.wLeft (UT.meanWeights n alpha kappa))) ⬝ᵥ y =
      ∑ l, UT.covWeights n alpha beta kappa l * (y l - UT.meanWeights n alpha kappa ⬝ᵥ y) ^ 2 := by
  have h := weighted_form (UT.meanWeights n alpha kappa) (UT.covWeights n alpha beta kappa)
      (of fun l (_ : Fin 1) => y l) (of fun l (_ : Fin 1) => y l) 0 0
  have e : ∀ (A : Matrix (Fin (1 + n + n)) (Fin (1 + n + n)) ℝ),
      ((of fun l (_ : Fin 1) => y l)ᵀ * A * (of fun l (_ : Fin 1) => y l) : Matrix (Fin 1) (Fin 1) ℝ) 0 0 = (y ᵥ* A) ⬝ᵥ y := by
    intro A; simp [Matrix.mul_apply, vecMul, dotProduct]
  rw [e] at h
  rw [h]
  refine Finset.sum_congr rfl fun l _ => ?_
  simp only [of_apply, vecMul, dotProduct]
  ring

/-- The deviations from the weighted mean have weighted mean zero. -/
theorem weighted_dev (hpos : 0 < alpha ^ 2 * (n + kappa)) (y : Fin (1 + n + n) → ℝ) :
    UT.meanWeights n alpha kappa ⬝ᵥ (fun l => y l - UT.meanWeights n alpha kappa ⬝ᵥ y) = 0 := by
  have h1 : ∑ l, UT.meanWeights n alpha kappa l = 1 := by
    have := weighted_mean (alpha := alpha) (kappa := kappa) (fun _ : Fin (1 + n + n) => (1 : ℝ))
    simp only [dotProduct, mul_one, Finset.sum_const, Finset.card_univ, Fintype.card_fin, nsmul_eq_mul] at this
    rw [this]
    generalize alpha ^ 2 * (n + kappa) = c at *
    field_simp
    ring
  simp only [dotProduct, mul_sub, Finset.sum_sub_distrib, ← Finset.sum_mul, h1, one_mul, sub_self]

/-- Cauchy-Schwarz over the two blocks of outer points. -/
theorem outer_squares (a b : Fin n → ℝ) : (∑ j, a j + ∑ j, b j) ^ 2 ≤ 2 * n * (∑ j, a j ^ 2 + ∑ j, b j ^ 2) := by
  have h := sq_sum_le_card_mul_sum_sq (s := (Finset.univ : Finset (Fin n ⊕ Fin n))) (f := Sum.elim a b)
  simp only [Fintype.sum_sum_type, Sum.elim_inl, Sum.elim_inr, Finset.card_univ, Fintype.card_sum, Fintype.card_fin, Nat.cast_add] at h
  linarith

theorem variance_nonneg (hpos : 0 < alpha ^ 2 * (n + kappa)) (hk : 0 ≤ alpha ^ 2 * kappa + n * beta) (y : Fin (1 + n + n) → ℝ) :
    0 ≤ ∑ l, UT.covWeights n alpha beta kappa l * (y l - UT.meanWeights n alpha kappa ⬝ᵥ y) ^ 2 := by
  have hz := weighted_dev hpos y
  generalize (fun l => y l - UT.meanWeights n alpha kappa ⬝ᵥ y) = d at hz
  have key : ∀ d : Fin (1 + n + n) → ℝ, UT.meanWeights n alpha kappa ⬝ᵥ d = 0 → 0 ≤ ∑ l, UT.covWeights n alpha beta kappa l * d l ^ 2 := by
    intro d hd
    rw [weighted_squares]
    rw [weighted_mean] at hd
    have hcs := outer_squares (fun j => d (Fin.castAdd n (Fin.natAdd 1 j))) (fun j => d (Fin.natAdd (1 + n) j))
    have hQ : 0 ≤ ∑ j, d (Fin.castAdd n (Fin.natAdd 1 j)) ^ 2 + ∑ j, d (Fin.natAdd (1 + n) j) ^ 2 := by positivity
    rcases Nat.eq_zero_or_pos n with rfl | hn
    · simp only [Nat.cast_zero, sub_zero, Finset.univ_eq_empty, Finset.sum_empty, add_zero, mul_zero] at hd ⊢
      rw [div_self (by simpa using hpos.ne'), one_mul] at hd
      rw [hd]; simp
    have hn' : (0 : ℝ) < n := by exact_mod_cast hn
    generalize d (Fin.castAdd n (Fin.castAdd n 0)) = d0 at *
    generalize (∑ j, d (Fin.castAdd n (Fin.natAdd 1 j)) + ∑ j, d (Fin.natAdd (1 + n) j)) = S at *
    generalize (∑ j, d (Fin.castAdd n (Fin.natAdd 1 j)) ^ 2 + ∑ j, d (Fin.natAdd (1 + n) j) ^ 2) = Q at *
    have hc : alpha ^ 2 * (n + kappa) = n * alpha ^ 2 + alpha ^ 2 * kappa := by ring
    generalize alpha ^ 2 * (n + kappa) = c at *
    have hS : S = -2 * (c - n) * d0 := by
      field_simp at hd
      linarith
    rw [hS] at hcs
    have h1 : 0 ≤ (alpha ^ 2 * kappa + n * beta) * d0 ^ 2 := mul_nonneg hk (sq_nonneg _)
    have h2 : ((c - n) / c + (1 - alpha ^ 2 + beta)) * d0 ^ 2 + 1 / (2 * c) * Q =
        ((2 * n * Q - (-2 * (c - n) * d0) ^ 2) / (2 * c) + 2 * ((c - n * alpha ^ 2 + n * beta) * d0 ^ 2)) / (2 * n) := by
      field_simp
      ring
    rw [h2, hc]
    have h3 : 0 ≤ (2 * n * Q - (-2 * (c - n) * d0) ^ 2) / (2 * c) := div_nonneg (by linarith) (by linarith)
    refine div_nonneg ?_ (by linarith)
    have e : n * alpha ^ 2 + alpha ^ 2 * kappa - n * alpha ^ 2 + n * beta = alpha ^ 2 * kappa + n * beta := by ring
    rw [e, ← hc]
    linarith
  exact key _ (weighted_dev hpos y)

/-- The function that is one at the origin and zero elsewhere, applied row by row. -/
noncomputable def spike : Func := fun a =>
  open Classical in
  match a with
  | @Arr.m r _ M => .ok (.m (of fun i (_ : Fin 1) => if ∀ j, M i j = 0 then (1 : ℝ) else 0 : Matrix (Fin r) (Fin 1) ℝ))
  | a => .ok a

/-- **C16.** For which parameters the unscented covariance is semidefinite whatever the function and the state: exactly for
`alpha² kappa + dim beta ≥ 0`.  (A negative weight of the centre point is not enough to spoil it.) -/
theorem C16_psd_iff {env : Env} {u : UT} (hu : UT.init n alpha beta kappa = .ok u) (hpos : 0 < alpha ^ 2 * (n + kappa)) :
    (∀ (func : Func) (state : Gaussian) (mean cov cross : Arr), u.transform env func state = .ok (mean, cov, cross) → ArrPSD cov) ↔
      0 ≤ alpha ^ 2 * kappa + n * beta := by
  constructor
  · intro h
    by_contra hk
    push Not at hk
    have hn : 0 < n := by
      rcases Nat.eq_zero_or_pos n with rfl | hn
      · simp at hpos hk; linarith
      · exact hn
    have hn' : (0 : ℝ) < n := by exact_mod_cast hn
    obtain ⟨h0, rfl⟩ := ut_init hu
    have hP : (1 : Matrix (Fin n) (Fin n) ℝ).PosDef := Matrix.PosDef.one
    have hm := hasMoments_ofMoment env (0 : Fin n → ℝ) (1 : Matrix (Fin n) (Fin n) ℝ)
    have hlam : 0 ≤ (n : ℝ) + (alpha * alpha * (n + kappa) - n) := by rw [denom]; exact hpos.le
    have hσ := sigmaPoints_ok (u := ⟨n, alpha * alpha * (n + kappa) - n, UT.meanWeights n alpha kappa,
      (UT.wLeft (UT.meanWeights n alpha kappa))ᵀ * Matrix.diagonal (UT.covWeights n alpha beta kappa) *
        UT.wLeft (UT.meanWeights n alpha kappa)⟩) (μ := (0 : Fin n → ℝ)) hP hlam
    have ht := ut_transform_of (func := spike) (k := 1) hm.1 hm.2 hσ rfl
    have hpsd := h _ _ _ _ _ ht
    obtain ⟨hr, hpsd⟩ := hpsd
    have hd := (posSemidef_iff_real.1 hpsd).2 (fun _ => 1)
    simp only [dotProduct, mulVec, Fin.sum_univ_one, mul_one, one_mul] at hd
    simp only [submatrix_apply, id, Fin.cast_refl, Matrix.smul_apply, Matrix.add_apply, transpose_apply, smul_eq_mul] at hd
    have e : ∀ (A : Matrix (Fin (1 + n + n)) (Fin (1 + n + n)) ℝ) (y : Fin (1 + n + n) → ℝ),
        ((of fun l (_ : Fin 1) => y l)ᵀ * A * (of fun l (_ : Fin 1) => y l) : Matrix (Fin 1) (Fin 1) ℝ) 0 0 = (y ᵥ* A) ⬝ᵥ y := by
      intro A y; simp [Matrix.mul_apply, vecMul, dotProduct]
    rw [e, weighted_form_one, weighted_squares, weighted_mean] at hd
    have hU := (cholU_spec hP)
    have hk0 : Real.sqrt (n + (alpha * alpha * (n + kappa) - n)) ≠ 0 := by
      rw [denom]; exact (Real.sqrt_pos.2 hpos).ne'
    have hrow : ∀ i : Fin n, ∃ j, cholU hP i j ≠ 0 := by
      intro i
      by_contra hcon
      push Not at hcon
      have hdet : (cholU hP).det = 0 := Matrix.det_eq_zero_of_row_eq_zero i hcon
      have := congrArg Matrix.det hU.mul_eq
      rw [Matrix.det_mul, hdet, mul_zero, Matrix.det_one] at this
      exact one_ne_zero this.symm
    have p1 : ∀ i : Fin n, ¬ ∀ j, sigmaMat (0 : Fin n → ℝ) (cholU hP) (Real.sqrt (n + (alpha * alpha * (n + kappa) - n)))
        (Fin.castAdd n (Fin.natAdd 1 i)) j = 0 := by
      intro i hi
      obtain ⟨j, hj⟩ := hrow i
      have := hi j
      rw [sigmaMat_plus] at this
      simp only [Pi.zero_apply, zero_add, mul_eq_zero] at this
      exact this.elim hk0 hj
    have p2 : ∀ i : Fin n, ¬ ∀ j, sigmaMat (0 : Fin n → ℝ) (cholU hP) (Real.sqrt (n + (alpha * alpha * (n + kappa) - n)))
        (Fin.natAdd (1 + n) i) j = 0 := by
      intro i hi
      obtain ⟨j, hj⟩ := hrow i
      have := hi j
      rw [sigmaMat_minus] at this
      simp only [Pi.zero_apply, zero_sub, neg_eq_zero, mul_eq_zero] at this
      exact this.elim hk0 hj
    have p0 : ∀ j, sigmaMat (0 : Fin n → ℝ) (cholU hP) (Real.sqrt (n + (alpha * alpha * (n + kappa) - n)))
        (Fin.castAdd n (Fin.castAdd n 0)) j = 0 := by
      intro j; rw [sigmaMat_centre]; rfl
    simp only [if_neg (p1 _), if_neg (p2 _), if_pos p0] at hd
    simp only [Finset.sum_const, Finset.card_univ, Fintype.card_fin, nsmul_eq_mul, mul_zero, add_zero, mul_one] at hd
    have hc : alpha ^ 2 * (n + kappa) = n * alpha ^ 2 + alpha ^ 2 * kappa := by ring
    generalize alpha ^ 2 * (n + kappa) = c at *
    have e2 : (2 : ℝ)⁻¹ *
        (((c - n) / c + (1 - alpha ^ 2 + beta)) * (1 - (c - n) / c) ^ 2 + 1 / (2 * c) * (n * (0 - (c - n) / c) ^ 2 + n * (0 - (c - n) / c) ^ 2) +
        (((c - n) / c + (1 - alpha ^ 2 + beta)) * (1 - (c - n) / c) ^ 2 + 1 / (2 * c) * (n * (0 - (c - n) / c) ^ 2 + n * (0 - (c - n) / c) ^ 2))) =
        n / c ^ 2 * (c - n * alpha ^ 2 + n * beta) := by
      field_simp
      ring
    rw [e2, hc] at hd
    have : n / c ^ 2 * (alpha ^ 2 * kappa + n * beta) < 0 := mul_neg_of_pos_of_neg (by positivity) hk
    rw [← hc] at hd
    have e3 : c - n * alpha ^ 2 + n * beta = alpha ^ 2 * kappa + n * beta := by rw [hc]; ring
    rw [e3] at hd
    linarith
  · intro hk func state mean cov cross h
    obtain ⟨h0, rfl⟩ := ut_init hu
    rcases ut_transform_inv h with ⟨Y, -, rfl⟩ | ⟨k, Y, -, rfl⟩
    · show (0 : ℝ) ≤ _
      rw [weighted_form_one]
      exact variance_nonneg hpos hk Y
    · refine ⟨rfl, ?_⟩
      rw [show ∀ (A : Matrix (Fin k) (Fin k) ℝ), A.submatrix id (Fin.cast rfl) = A from fun _ => rfl]
      rw [posSemidef_iff_real]
      refine ⟨half_add_transpose_symm _, fun x => ?_⟩
      rw [quad_symmetrize]
      have e : x ⬝ᵥ (Yᵀ * ((UT.wLeft (UT.meanWeights n alpha kappa))ᵀ * diagonal (UT.covWeights n alpha beta kappa) *
          UT.wLeft (UT.meanWeights n alpha kappa)) * Y) *ᵥ x =
          ((Y *ᵥ x) ᵥ* ((UT.wLeft (UT.meanWeights n alpha kappa))ᵀ * diagonal (UT.covWeights n alpha beta kappa) *
          UT.wLeft (UT.meanWeights n alpha kappa))) ⬝ᵥ (Y *ᵥ x) := by
        rw [← mulVec_mulVec, ← mulVec_mulVec, dotProduct_mulVec, vecMul_transpose, dotProduct_mulVec]
      rw [e, weighted_form_one]
      exact variance_nonneg hpos hk _

/-- The two transforms of the shipped sweeps satisfy it in every dimension; the scaled transform with `alpha = 0.001`, `kappa = 0` and the
customary `beta = 2` too, although its centre weight is about `-10⁶`; `kappa = 3 - dim` with `beta = 0` does not for `dim > 3`. -/
example (n : ℕ) : (0 : ℝ) ≤ 1 ^ 2 * 3 + n * 2 ∧ (0 : ℝ) ≤ 1 ^ 2 * 2 + n * 2 ∧ (0 : ℝ) ≤ (1 / 1000) ^ 2 * 0 + n * 2 :=
  ⟨by positivity, by positivity, by positivity⟩

example {env : Env} : ∃ u, UT.init 5 1 0 (-2) = .ok u ∧
    ∃ func state mean cov cross, u.transform env func state = .ok (mean, cov, cross) ∧ ¬ ArrPSD cov := by
  obtain ⟨u, hu, -⟩ := (C14_unscented_weights 5 1 0 (-2)).2 (by norm_num)
  refine ⟨u, hu, ?_⟩
  have h := (C16_psd_iff (env := env) hu (by norm_num)).not.2 (by norm_num)
  push Not at h
  exact h

end Verif
