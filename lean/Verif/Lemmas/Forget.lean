import Verif.Lemmas.Posterior
import Mathlib.Analysis.Normed.Group.Constructions
import Mathlib.Analysis.SpecificLimits.Basic

/-! How two runs of the filter with different priors approach each other. -/

namespace Verif

open Matrix

variable {n k : ℕ}

/-! ## Quadratic forms -/

theorem quad_nonneg {P : Matrix (Fin n) (Fin n) ℝ} (hP : P.PosSemidef) (u : Fin n → ℝ) : 0 ≤ quad P u :=
  (posSemidef_iff_quad.1 hP).2 u

theorem quad_smul (P : Matrix (Fin n) (Fin n) ℝ) (t : ℝ) (u : Fin n → ℝ) : quad P (t • u) = t ^ 2 * quad P u := by
  simp only [quad, mulVec_smul, smul_dotProduct, dotProduct_smul, smul_eq_mul]; ring

/-- The inequality of Cauchy and Schwarz. -/
theorem quad_cauchy {P : Matrix (Fin n) (Fin n) ℝ} (hP : P.PosSemidef) (u v : Fin n → ℝ) :
    (u ⬝ᵥ P *ᵥ v) ^ 2 ≤ quad P u * quad P v := by
  have hs := (posSemidef_iff_quad.1 hP).1
  have h : ∀ t : ℝ, 0 ≤ quad P v * (t * t) + 2 * (u ⬝ᵥ P *ᵥ v) * t + quad P u := fun t => by
    have := quad_nonneg hP (u + t • v)
    rw [quad_add hs, quad_smul, mulVec_smul, dotProduct_smul, smul_eq_mul] at this
    nlinarith
  have := discrim_le_zero h
  rw [discrim] at this
  nlinarith

theorem abs_le_quad {P : Matrix (Fin n) (Fin n) ℝ} (hP : P.PosSemidef) (u v : Fin n → ℝ) :
    |u ⬝ᵥ P *ᵥ v| ≤ √(quad P u) * √(quad P v) := by
  rw [← Real.sqrt_mul (quad_nonneg hP u)]
  exact Real.abs_le_sqrt (quad_cauchy hP u v)

theorem quad_congr' (A : Matrix (Fin n) (Fin n) ℝ) (H : Matrix (Fin k) (Fin n) ℝ) (x : Fin k → ℝ) :
    quad (H * A * Hᵀ) x = quad A (Hᵀ *ᵥ x) := by
  have := quad_congr A Hᵀ x
  rwa [transpose_transpose] at this

theorem quad_inv {P : Matrix (Fin n) (Fin n) ℝ} (hP : P.PosDef) (u : Fin n → ℝ) : quad P (P⁻¹ *ᵥ u) = quad P⁻¹ u := by
  rw [quad, quad, mulVec_mulVec, posDef_mul_inv hP, one_mulVec, dotProduct_comm]

theorem quad_inv' {P : Matrix (Fin n) (Fin n) ℝ} (hP : P.PosDef) (u : Fin n → ℝ) : quad P⁻¹ (P *ᵥ u) = quad P u := by
  have h := quad_inv hP (P *ᵥ u)
  rw [mulVec_mulVec, posDef_inv_mul hP, one_mulVec] at h
  exact h.symm

/-- Inversion reverses the order of positive definite matrices. -/
theorem quad_inv_le {P M : Matrix (Fin n) (Fin n) ℝ} (hP : P.PosDef) (hM : M.PosDef) (h : ∀ u, quad P u ≤ quad M u) (u : Fin n → ℝ) :
    quad M⁻¹ u ≤ quad P⁻¹ u := by
  have h1 : quad M⁻¹ u = (P⁻¹ *ᵥ u) ⬝ᵥ P *ᵥ (M⁻¹ *ᵥ u) := by
    rw [dot_symm (posDef_symm hP), mulVec_mulVec, posDef_mul_inv hP, one_mulVec, dotProduct_comm]; rfl
  have h2 := quad_cauchy hP.posSemidef (P⁻¹ *ᵥ u) (M⁻¹ *ᵥ u)
  rw [← h1, quad_inv hP] at h2
  have h3 := h (M⁻¹ *ᵥ u)
  rw [quad_inv hM] at h3
  have h4 := quad_nonneg hP.inv.posSemidef u
  have h5 := quad_nonneg hM.inv.posSemidef u
  by_contra hlt
  push Not at hlt
  nlinarith [mul_le_mul_of_nonneg_left h3 h4]

theorem quad_one (u : Fin n → ℝ) : quad (1 : Matrix (Fin n) (Fin n) ℝ) u = u ⬝ᵥ u := by rw [quad, one_mulVec]

/-- Every quadratic form is bounded by a multiple of a positive definite one. -/
theorem quad_bound (P : Matrix (Fin n) (Fin n) ℝ) {Q : Matrix (Fin n) (Fin n) ℝ} (hQ : Q.PosDef) :
    ∃ c, 0 ≤ c ∧ ∀ u, quad P u ≤ c * quad Q u := by
  have h1 : ∀ (i : Fin n) (u : Fin n → ℝ), u i ^ 2 ≤ quad Q⁻¹ (Pi.single i 1) * quad Q u := fun i u => by
    have h := quad_cauchy hQ.posSemidef (Q⁻¹ *ᵥ Pi.single i 1) u
    rw [quad_inv hQ, dot_symm (posDef_symm hQ), mulVec_mulVec, posDef_mul_inv hQ, one_mulVec, dotProduct_single, mul_one] at h
    exact h
  refine ⟨∑ i, ∑ j, |P i j| * (quad Q⁻¹ (Pi.single i 1) + quad Q⁻¹ (Pi.single j 1)), ?_, fun u => ?_⟩
  · exact Finset.sum_nonneg fun i _ => Finset.sum_nonneg fun j _ => mul_nonneg (abs_nonneg _)
      (add_nonneg (quad_nonneg hQ.inv.posSemidef _) (quad_nonneg hQ.inv.posSemidef _))
  · rw [quad, dotProduct, Finset.sum_mul]
    refine Finset.sum_le_sum fun i _ => ?_
    rw [mulVec, dotProduct, Finset.mul_sum, Finset.sum_mul]
    refine Finset.sum_le_sum fun j _ => ?_
    have hi := h1 i u
    have hj := h1 j u
    have h2 : u i * (P i j * u j) ≤ |P i j| * (|u i| * |u j|) := by
      calc u i * (P i j * u j) ≤ |u i * (P i j * u j)| := le_abs_self _
        _ = _ := by rw [abs_mul, abs_mul]; ring
    have h3 : |u i| * |u j| ≤ u i ^ 2 + u j ^ 2 := by
      nlinarith [sq_abs (u i), sq_abs (u j), sq_nonneg (|u i| - |u j|), sq_nonneg (|u i|), sq_nonneg (|u j|)]
    calc _ ≤ |P i j| * (|u i| * |u j|) := h2
      _ ≤ |P i j| * ((quad Q⁻¹ (Pi.single i 1) + quad Q⁻¹ (Pi.single j 1)) * quad Q u) :=
          mul_le_mul_of_nonneg_left (by linarith) (abs_nonneg _)
      _ = _ := by ring

theorem mulVec_bound {r c : ℕ} (M : Matrix (Fin r) (Fin c) ℝ) : ∃ b, 0 ≤ b ∧ ∀ x, ‖M *ᵥ x‖ ≤ b * ‖x‖ := by
  refine ⟨∑ i, ∑ j, |M i j|, Finset.sum_nonneg fun i _ => Finset.sum_nonneg fun j _ => abs_nonneg _, fun x => ?_⟩
  refine (pi_norm_le_iff_of_nonneg (mul_nonneg (Finset.sum_nonneg fun i _ => Finset.sum_nonneg fun j _ => abs_nonneg _)
    (norm_nonneg _))).2 fun i => ?_
  calc ‖(M *ᵥ x) i‖ = |∑ j, M i j * x j| := rfl
    _ ≤ ∑ j, |M i j * x j| := Finset.abs_sum_le_sum_abs _ _
    _ ≤ ∑ j, |M i j| * ‖x‖ := Finset.sum_le_sum fun j _ => by
        rw [abs_mul]; exact mul_le_mul_of_nonneg_left (norm_le_pi_norm x j) (abs_nonneg _)
    _ = (∑ j, |M i j|) * ‖x‖ := (Finset.sum_mul _ _ _).symm
    _ ≤ _ := mul_le_mul_of_nonneg_right (Finset.single_le_sum (f := fun i => ∑ j, |M i j|)
        (fun i _ => Finset.sum_nonneg fun j _ => abs_nonneg _) (Finset.mem_univ i)) (norm_nonneg _)

theorem dot_self_nonneg (x : Fin n → ℝ) : 0 ≤ x ⬝ᵥ x := Finset.sum_nonneg fun _ _ => mul_self_nonneg _

theorem dot_self_le (x : Fin n → ℝ) : x ⬝ᵥ x ≤ n * ‖x‖ ^ 2 := by
  calc x ⬝ᵥ x = ∑ i, x i ^ 2 := Finset.sum_congr rfl fun i _ => (pow_two _).symm
    _ ≤ ∑ _i : Fin n, ‖x‖ ^ 2 := Finset.sum_le_sum fun i _ => by
        have := norm_le_pi_norm x i
        rw [Real.norm_eq_abs] at this
        rw [← sq_abs]
        exact pow_le_pow_left₀ (abs_nonneg _) this 2
    _ = _ := by rw [Finset.sum_const, Finset.card_univ, Fintype.card_fin, nsmul_eq_mul]

/-! ## One step of the filter -/

section Step

variable {M M₂ : Matrix (Fin n) (Fin n) ℝ} {R : Matrix (Fin k) (Fin k) ℝ}

theorem gain_condCov (hM : M.PosDef) (hR : R.PosDef) (H : Matrix (Fin k) (Fin n) ℝ) : gainMat M H R = condCov M H R * (Hᵀ * R⁻¹) := by
  have h := info_mul_gain hM hR H
  rw [← condCov_inv hM hR H] at h
  rw [← h, ← Matrix.mul_assoc, posDef_mul_inv (condCov_posDef hM hR H), Matrix.one_mul]

theorem one_sub_gain (hM : M.PosDef) (hR : R.PosDef) (H : Matrix (Fin k) (Fin n) ℝ) :
    1 - gainMat M H R * H = condCov M H R * M⁻¹ := by
  rw [gain_condCov hM hR]
  have h : condCov M H R * (condCov M H R)⁻¹ = 1 := posDef_mul_inv (condCov_posDef hM hR H)
  rw [condCov_inv hM hR, Matrix.mul_add] at h
  rw [← h]
  simp only [Matrix.mul_assoc]
  abel

/-- The conditioned mean, with the part that depends on the old mean separated. -/
theorem condMean_eq (hM : M.PosDef) (hR : R.PosDef) (H : Matrix (Fin k) (Fin n) ℝ) (m : Fin n → ℝ) (c y : Fin k → ℝ) :
    condMean m M H c R y = (condCov M H R * M⁻¹) *ᵥ m + condCov M H R *ᵥ ((Hᵀ * R⁻¹) *ᵥ (y - c)) := by
  rw [condMean, ← one_sub_gain hM hR, mulVec_mulVec, ← gain_condCov hM hR, sub_mulVec, one_mulVec, ← mulVec_mulVec, mulVec_sub, mulVec_add,
    mulVec_sub]
  abel

/-- Two filters with the same covariance. -/
theorem condMean_sub (hM : M.PosDef) (hR : R.PosDef) (H : Matrix (Fin k) (Fin n) ℝ) (m m' : Fin n → ℝ) (c y : Fin k → ℝ) :
    condMean m M H c R y - condMean m' M H c R y = (condCov M H R * M⁻¹) *ᵥ (m - m') := by
  rw [condMean_eq hM hR, condMean_eq hM hR, mulVec_sub _ m m']; abel

/-- Two filters with different covariances. -/
theorem condMean_sub' (hM : M.PosDef) (hM₂ : M₂.PosDef) (hR : R.PosDef) (H : Matrix (Fin k) (Fin n) ℝ) (m m' : Fin n → ℝ)
    (c y : Fin k → ℝ) :
    condMean m M H c R y - condMean m' M₂ H c R y = (condCov M H R * M⁻¹) *ᵥ (m - m') +
      (condCov M H R - condCov M₂ H R) *ᵥ ((Hᵀ * R⁻¹) *ᵥ (y - (H *ᵥ m' + c))) := by
  rw [← condMean_sub hM hR H m m' c y, sub_mulVec, mulVec_mulVec, mulVec_mulVec, ← gain_condCov hM hR, ← gain_condCov hM₂ hR, condMean,
    condMean, condMean]
  abel

theorem condCov_le (hM : M.PosDef) (hR : R.PosDef) (H : Matrix (Fin k) (Fin n) ℝ) (u : Fin n → ℝ) :
    quad M⁻¹ u ≤ quad (condCov M H R)⁻¹ u := by
  rw [condCov_inv hM hR, quad_add_mat, quad_congr]
  have := quad_nonneg hR.inv.posSemidef (H *ᵥ u)
  linarith

theorem condCov_le' (hM : M.PosDef) (hR : R.PosDef) (H : Matrix (Fin k) (Fin n) ℝ) (u : Fin n → ℝ) :
    quad (condCov M H R) u ≤ quad M u := by
  have h := quad_inv_le hM.inv (condCov_posDef hM hR H).inv (condCov_le hM hR H) u
  rwa [nonsing_inv_nonsing_inv _ (posDef_isUnit (condCov_posDef hM hR H)), nonsing_inv_nonsing_inv _ (posDef_isUnit hM)] at h

/-- The map that takes the old difference of the means to the new one shrinks in units of the covariance. -/
theorem quad_step {P A : Matrix (Fin n) (Fin n) ℝ} {Q : Matrix (Fin n) (Fin n) ℝ} (hM : (A * P * Aᵀ + Q).PosDef) (hR : R.PosDef)
    (H : Matrix (Fin k) (Fin n) ℝ) {θ : ℝ} (hθ : 0 ≤ θ) (h : ∀ v, quad (A * P * Aᵀ) v ≤ θ * quad (A * P * Aᵀ + Q) v) (u : Fin n → ℝ) :
    quad P ((condCov (A * P * Aᵀ + Q) H R * (A * P * Aᵀ + Q)⁻¹ * A)ᵀ *ᵥ u) ≤ θ * quad (condCov (A * P * Aᵀ + Q) H R) u := by
  set M := A * P * Aᵀ + Q with hMd
  have hC := condCov_posDef hM hR H
  set C := condCov M H R
  have e : (C * M⁻¹ * A)ᵀ *ᵥ u = Aᵀ *ᵥ (M⁻¹ *ᵥ (C *ᵥ u)) := by
    rw [transpose_mul, transpose_mul, posDef_inv_symm hM, posDef_symm hC, mulVec_mulVec, mulVec_mulVec, Matrix.mul_assoc]
  rw [e, ← quad_congr']
  refine (h _).trans (mul_le_mul_of_nonneg_left ?_ hθ)
  rw [quad_inv hM]
  refine (condCov_le hM hR H _).trans (le_of_eq ?_)
  exact quad_inv' hC u

/-- The difference of the covariances of two filters. -/
theorem condCov_sub (hM : M.PosDef) (hM₂ : M₂.PosDef) (hR : R.PosDef) (H : Matrix (Fin k) (Fin n) ℝ) :
    condCov M H R - condCov M₂ H R = condCov M H R * M⁻¹ * (M - M₂) * (M₂⁻¹ * condCov M₂ H R) := by
  have hC := condCov_posDef hM hR H
  have hC₂ := condCov_posDef hM₂ hR H
  have e1 : (condCov M₂ H R)⁻¹ - (condCov M H R)⁻¹ = M₂⁻¹ - M⁻¹ := by rw [condCov_inv hM hR, condCov_inv hM₂ hR]; abel
  calc condCov M H R - condCov M₂ H R
      = condCov M H R * ((condCov M₂ H R)⁻¹ * condCov M₂ H R) - (condCov M H R * (condCov M H R)⁻¹) * condCov M₂ H R := by
        rw [posDef_inv_mul hC₂, posDef_mul_inv hC, Matrix.mul_one, Matrix.one_mul]
    _ = condCov M H R * ((condCov M₂ H R)⁻¹ - (condCov M H R)⁻¹) * condCov M₂ H R := by
        simp only [Matrix.mul_sub, Matrix.sub_mul, Matrix.mul_assoc]
    _ = condCov M H R * (M₂⁻¹ - M⁻¹) * condCov M₂ H R := by rw [e1]
    _ = condCov M H R * (M⁻¹ * M * M₂⁻¹ - M⁻¹ * (M₂ * M₂⁻¹)) * condCov M₂ H R := by
        rw [posDef_inv_mul hM, posDef_mul_inv hM₂, Matrix.mul_one, Matrix.one_mul]
    _ = _ := by simp only [Matrix.mul_sub, Matrix.sub_mul, Matrix.mul_assoc]

/-- No other gain gives a smaller covariance. -/
theorem condCov_optimal (hM : M.PosDef) (hR : R.PosDef) (H : Matrix (Fin k) (Fin n) ℝ) (G : Matrix (Fin n) (Fin k) ℝ) (u : Fin n → ℝ) :
    quad (condCov M H R) u ≤ quad ((1 - G * H) * M * (1 - G * H)ᵀ + G * R * Gᵀ) u := by
  have hS := innov_posDef hM.posSemidef hR H
  have hMs := posDef_symm hM
  rw [quad_add_mat, quad_congr', quad_congr']
  have e1 : (1 - G * H)ᵀ *ᵥ u = u - Hᵀ *ᵥ (Gᵀ *ᵥ u) := by
    rw [transpose_sub, transpose_one, transpose_mul, sub_mulVec, one_mulVec, mulVec_mulVec]
  set w := Gᵀ *ᵥ u
  have e2 : quad (condCov M H R) u = quad M u - quad (H * M * Hᵀ + R)⁻¹ (H *ᵥ (M *ᵥ u)) := by
    have : M * Hᵀ * (H * M * Hᵀ + R)⁻¹ * (M * Hᵀ)ᵀ = (H * M)ᵀ * (H * M * Hᵀ + R)⁻¹ * (H * M) := by
      rw [transpose_mul, transpose_mul, transpose_transpose, hMs]
    rw [condCov, this, mulVec_mulVec, ← quad_congr]
    simp [quad, sub_mulVec]
  have e3 : u ⬝ᵥ M *ᵥ (Hᵀ *ᵥ w) = w ⬝ᵥ H *ᵥ (M *ᵥ u) := by
    rw [dot_symm hMs, mulVec_transpose, dotProduct_comm, dotProduct_comm w, dotProduct_comm (M *ᵥ u), ← dotProduct_mulVec, dotProduct_comm]
  have e4 : quad M (Hᵀ *ᵥ w) + quad R w = quad (H * M * Hᵀ + R) w := by rw [quad_add_mat, quad_congr']
  have h := quad_nonneg hS.posSemidef (w - (H * M * Hᵀ + R)⁻¹ *ᵥ (H *ᵥ (M *ᵥ u)))
  rw [quad_sub (posDef_symm hS), quad_inv hS, mulVec_mulVec, posDef_mul_inv hS, one_mulVec] at h
  rw [e1, e2, quad_sub hMs, e3]
  linarith

end Step

/-! ## The whole run -/

namespace StateSpace

variable (L : StateSpace n k) (y : ℕ → Fin k → ℝ)

variable {L y}

theorem Good.withPrior (h : L.Good) (m : Fin n → ℝ) {P : Matrix (Fin n) (Fin n) ℝ} (hP : P.PosDef) : (L.withPrior m P).Good :=
  ⟨hP, h.Q, h.R⟩

/-- The covariances of the filter depend neither on the measurements nor on the prior mean. -/
theorem filt_cov (y' : ℕ → Fin k → ℝ) (m : Fin n → ℝ) : ∀ i, ((L.withPrior m L.P0).filt y' i).2 = (L.filt y i).2
  | 0 => rfl
  | i + 1 => by rw [StateSpace.filt, StateSpace.filt, filt_cov y' m i]; rfl

theorem gain_cov (y' : ℕ → Fin k → ℝ) (m : Fin n → ℝ) (i : ℕ) : (L.withPrior m L.P0).gain y' i = L.gain y i := by
  rw [gain, gain, filt_cov (y := y)]; rfl

theorem smth_cov (y' : ℕ → Fin k → ℝ) (m : Fin n → ℝ) : ∀ d i, ((L.withPrior m L.P0).smth y' i d).2 = (L.smth y i d).2
  | 0, i => filt_cov y' m i
  | d + 1, i => by rw [StateSpace.smth, StateSpace.smth]; dsimp only; rw [gain_cov (y := y), smth_cov y' m d (i + 1), filt_cov (y := y)]; rfl

theorem mulVec_mix {p q : ℕ} (M : Matrix (Fin p) (Fin q) ℝ) (θ : ℝ) (x x' : Fin q → ℝ) : M *ᵥ mix θ x x' = mix θ (M *ᵥ x) (M *ᵥ x') := by
  rw [mix, mix, mulVec_add, mulVec_smul, mulVec_smul]

/-- The means of the filter are affine in prior mean and measurements together. -/
theorem filt_mix (θ : ℝ) (m m' : Fin n → ℝ) (y y' : ℕ → Fin k → ℝ) : ∀ i,
    ((L.withPrior (mix θ m m') L.P0).filt (fun j => mix θ (y j) (y' j)) i).1 =
      mix θ ((L.withPrior m L.P0).filt y i).1 ((L.withPrior m' L.P0).filt y' i).1
  | 0 => rfl
  | i + 1 => by
    rw [StateSpace.filt, StateSpace.filt, StateSpace.filt]
    dsimp only
    rw [filt_mix θ m m' y y' i, filt_cov (y := y), filt_cov (y := y), filt_cov (y := y)]
    simp only [withPrior, condMean]
    set K := gainMat (L.A i * (L.filt y i).2 * (L.A i)ᵀ + L.Q) (L.H i) L.R
    rw [mulVec_mix]
    simp only [mix, mulVec_add, mulVec_sub, mulVec_smul]
    module

theorem smth_mix (θ : ℝ) (m m' : Fin n → ℝ) (y y' : ℕ → Fin k → ℝ) : ∀ d i,
    ((L.withPrior (mix θ m m') L.P0).smth (fun j => mix θ (y j) (y' j)) i d).1 =
      mix θ ((L.withPrior m L.P0).smth y i d).1 ((L.withPrior m' L.P0).smth y' i d).1
  | 0, i => filt_mix θ m m' y y' i
  | d + 1, i => by
    rw [StateSpace.smth, StateSpace.smth, StateSpace.smth]
    dsimp only
    rw [filt_mix θ m m' y y' i, smth_mix θ m m' y y' d (i + 1), gain_cov (y := y), gain_cov (y := y), gain_cov (y := y)]
    simp only [withPrior]
    simp only [mulVec_mix, mulVec_add]
    simp only [mix]
    module

/-! ### Differences in units of the covariance -/

/-- In every direction the vector has at most the length of `D` standard deviations of the covariance. -/
def Within (D : ℝ) (d : Fin n → ℝ) (P : Matrix (Fin n) (Fin n) ℝ) : Prop := ∀ u, |u ⬝ᵥ d| ≤ D * √(quad P u)

theorem quad_pred_le {A P Q : Matrix (Fin n) (Fin n) ℝ} (hQ : Q.PosDef) (v : Fin n → ℝ) :
    quad (A * P * Aᵀ) v ≤ 1 * quad (A * P * Aᵀ + Q) v := by
  rw [quad_add_mat]
  have := quad_nonneg hQ.posSemidef v
  linarith

theorem Within.step {A P Q : Matrix (Fin n) (Fin n) ℝ} {R : Matrix (Fin k) (Fin k) ℝ} (hM : (A * P * Aᵀ + Q).PosDef) (hR : R.PosDef)
    (H : Matrix (Fin k) (Fin n) ℝ) {ρ : ℝ} (hρ : 0 ≤ ρ) (h : ∀ v, quad (A * P * Aᵀ) v ≤ ρ ^ 2 * quad (A * P * Aᵀ + Q) v) {D : ℝ} (hD : 0 ≤ D)
    {d : Fin n → ℝ} (hd : Within D d P) :
    Within (ρ * D) ((condCov (A * P * Aᵀ + Q) H R * (A * P * Aᵀ + Q)⁻¹ * A) *ᵥ d) (condCov (A * P * Aᵀ + Q) H R) := fun u => by
  set M := A * P * Aᵀ + Q
  have h1 := quad_step hM hR H (sq_nonneg ρ) h u
  set Φ := condCov M H R * M⁻¹ * A
  have e : u ⬝ᵥ Φ *ᵥ d = (Φᵀ *ᵥ u) ⬝ᵥ d := by rw [dotProduct_mulVec, mulVec_transpose]
  rw [e]
  calc _ ≤ D * √(quad P (Φᵀ *ᵥ u)) := hd _
    _ ≤ D * √(ρ ^ 2 * quad (condCov M H R) u) := mul_le_mul_of_nonneg_left (Real.sqrt_le_sqrt h1) hD
    _ = _ := by rw [Real.sqrt_mul (sq_nonneg ρ), Real.sqrt_sq hρ]; ring

theorem Within.mono {D D' : ℝ} (h : D ≤ D') {d : Fin n → ℝ} {P : Matrix (Fin n) (Fin n) ℝ} (hd : Within D d P) : Within D' d P :=
  fun u => (hd u).trans (mul_le_mul_of_nonneg_right h (Real.sqrt_nonneg _))

theorem Within.add {D D' : ℝ} {d d' : Fin n → ℝ} {P : Matrix (Fin n) (Fin n) ℝ} (hd : Within D d P) (hd' : Within D' d' P) :
    Within (D + D') (d + d') P := fun u => by
  rw [dotProduct_add, add_mul]
  exact (abs_add_le _ _).trans (add_le_add (hd u) (hd' u))

theorem within_mulVec {P : Matrix (Fin n) (Fin n) ℝ} (hP : P.PosSemidef) (v : Fin n → ℝ) : Within √(quad P v) (P *ᵥ v) P := fun u => by
  rw [mul_comm]; exact abs_le_quad hP u v

/-- A covariance that is bounded in all directions. -/
theorem Within.norm_le {D B : ℝ} (hD : 0 ≤ D) {d : Fin n → ℝ} {P : Matrix (Fin n) (Fin n) ℝ} (hB : ∀ u, quad P u ≤ B * (u ⬝ᵥ u)) (hd : Within D d P) :
    ‖d‖ ≤ D * √B := by
  refine (pi_norm_le_iff_of_nonneg (mul_nonneg hD (Real.sqrt_nonneg _))).2 fun i => ?_
  have h := hd (Pi.single i 1)
  rw [single_dotProduct, one_mul] at h
  refine h.trans (mul_le_mul_of_nonneg_left (Real.sqrt_le_sqrt ?_) hD)
  have := hB (Pi.single i 1)
  rwa [single_dotProduct, one_mul, Pi.single_eq_same, mul_one] at this

/-- Every vector is within some number of standard deviations. -/
theorem exists_within {P : Matrix (Fin n) (Fin n) ℝ} (hP : P.PosDef) (d : Fin n → ℝ) : ∃ D, 0 ≤ D ∧ Within D d P := by
  refine ⟨√(quad P (P⁻¹ *ᵥ d)), Real.sqrt_nonneg _, ?_⟩
  have := within_mulVec hP.posSemidef (P⁻¹ *ᵥ d)
  rwa [mulVec_mulVec, posDef_mul_inv hP, one_mulVec] at this

/-- Estimates from two prior means never get farther apart. -/
theorem Good.within (h : L.Good) (m m' : Fin n → ℝ) {D : ℝ} (hD : 0 ≤ D) {i : ℕ}
    (hi : Within D (((L.withPrior m L.P0).filt y i).1 - ((L.withPrior m' L.P0).filt y i).1) (L.filt y i).2) : ∀ j, i ≤ j →
    Within D (((L.withPrior m L.P0).filt y j).1 - ((L.withPrior m' L.P0).filt y j).1) (L.filt y j).2 := by
  intro j hj
  induction j, hj using Nat.le_induction with
  | base => exact hi
  | succ j _ ih =>
    have hM := h.pred (y := y) j
    have h1 := Within.step hM h.R (L.H j) zero_le_one (fun v => by rw [one_pow]; exact quad_pred_le h.Q v) hD ih
    rw [one_mul] at h1
    rw [StateSpace.filt, StateSpace.filt, StateSpace.filt, filt_cov (y := y), filt_cov (y := y)]
    dsimp only
    have e := condMean_sub hM h.R (L.H j) (L.A j *ᵥ ((L.withPrior m L.P0).filt y j).1 + L.b j)
      (L.A j *ᵥ ((L.withPrior m' L.P0).filt y j).1 + L.b j) (L.c j) (y j)
    rw [add_sub_add_right_eq_sub, ← mulVec_sub, mulVec_mulVec] at e
    rw [← e] at h1
    exact h1

/-! ### Forgetting -/

variable {A : Matrix (Fin n) (Fin n) ℝ} {b : Fin n → ℝ} {H : Matrix (Fin k) (Fin n) ℝ} {c : Fin k → ℝ}

theorem Good.bounded (h : L.Good) (hA : ∀ i, L.A i = A) (hH : ∀ i, L.H i = H) (hO : Detectable A L.Q H L.R) :
    ∃ B, 0 ≤ B ∧ ∀ y i u, quad (L.filt y i).2 u ≤ B * (u ⬝ᵥ u) := by
  obtain ⟨G, X, hX, hGX⟩ := hO
  have hGX' : ∀ u, quad ((1 - G * H) * (A * X * Aᵀ + L.Q) * (1 - G * H)ᵀ + G * L.R * Gᵀ) u ≤ quad X u := fun u => by
    have := quad_nonneg hGX u
    simp only [quad, sub_mulVec, dotProduct_sub] at this ⊢
    linarith
  obtain ⟨s₀, -, hs₀⟩ := quad_bound L.P0 hX
  set s := max 1 s₀
  have key : ∀ y i u, quad (L.filt y i).2 u ≤ s * quad X u := fun y i => by
    induction i with
    | zero =>
      exact fun u => (hs₀ u).trans (mul_le_mul_of_nonneg_right (le_max_right _ _) (quad_nonneg hX.posSemidef u))
    | succ i ih =>
      intro u
      have h1 := condCov_optimal (h.pred (y := y) i) h.R (L.H i) G u
      refine h1.trans ?_
      rw [hA, hH]
      refine le_trans ?_ (mul_le_mul_of_nonneg_left (hGX' u) (zero_le_one.trans (le_max_left _ _)))
      simp only [quad_add_mat, quad_congr']
      have h2 := ih (Aᵀ *ᵥ ((1 - G * H)ᵀ *ᵥ u))
      have h3 := quad_nonneg h.Q.posSemidef ((1 - G * H)ᵀ *ᵥ u)
      have h4 := quad_nonneg h.R.posSemidef (Gᵀ *ᵥ u)
      have h5 : 1 ≤ s := le_max_left _ _
      nlinarith
  obtain ⟨t, ht, hXt⟩ := quad_bound X (PosDef.one (n := Fin n) (R := ℝ))
  refine ⟨s * t, mul_nonneg (zero_le_one.trans (le_max_left _ _)) ht, fun y i u => ?_⟩
  have h1 := hXt u
  rw [quad_one] at h1
  refine (key y i u).trans ?_
  rw [mul_assoc]
  exact mul_le_mul_of_nonneg_left h1 (zero_le_one.trans (le_max_left _ _))

/-- A rate of contraction for bounded covariances. -/
theorem exists_rate (A : Matrix (Fin n) (Fin n) ℝ) {Q : Matrix (Fin n) (Fin n) ℝ} (hQ : Q.PosDef) {B : ℝ} (hB : 0 ≤ B) :
    ∃ ρ, 0 < ρ ∧ ρ < 1 ∧ ∀ P : Matrix (Fin n) (Fin n) ℝ, (∀ u, quad P u ≤ B * (u ⬝ᵥ u)) →
      ∀ v, quad (A * P * Aᵀ) v ≤ ρ ^ 2 * quad (A * P * Aᵀ + Q) v := by
  obtain ⟨t, ht, hAt⟩ := quad_bound (A * Aᵀ) hQ
  set κ := B * t + 1
  have hκ : 0 < κ := by positivity
  have hlt : κ / (κ + 1) < 1 := by rw [div_lt_one (by linarith)]; linarith
  refine ⟨√(κ / (κ + 1)), Real.sqrt_pos.2 (by positivity), by rw [Real.sqrt_lt' one_pos, one_pow]; exact hlt, fun P hP v => ?_⟩
  rw [Real.sq_sqrt (by positivity), div_mul_eq_mul_div, le_div_iff₀ (by linarith), quad_add_mat, quad_congr']
  have h1 := hP (Aᵀ *ᵥ v)
  have h2 : (Aᵀ *ᵥ v) ⬝ᵥ (Aᵀ *ᵥ v) = quad (A * Aᵀ) v := by
    have := quad_congr' (1 : Matrix (Fin n) (Fin n) ℝ) A v
    rw [Matrix.mul_one, quad_one] at this
    exact this.symm
  have h3 := mul_le_mul_of_nonneg_left (hAt v) hB
  have h4 := quad_nonneg hQ.posSemidef v
  rw [h2] at h1
  have h5 : quad P (Aᵀ *ᵥ v) ≤ κ * quad Q v := by
    have : κ * quad Q v = B * (t * quad Q v) + quad Q v := by simp only [κ]; ring
    linarith
  linarith

/-- Two prior means: the estimates approach each other at a geometric rate, whatever the measurements are. -/
theorem Good.forget_mean (h : L.Good) (hA : ∀ i, L.A i = A) (hH : ∀ i, L.H i = H) (hO : Detectable A L.Q H L.R) :
    ∃ ρ B, 0 < ρ ∧ ρ < 1 ∧ 0 ≤ B ∧ ∀ (m m' : Fin n → ℝ) (D : ℝ), 0 ≤ D → Within D (m - m') L.P0 → ∀ (y : ℕ → Fin k → ℝ) (i : ℕ),
      ‖((L.withPrior m L.P0).filt y i).1 - ((L.withPrior m' L.P0).filt y i).1‖ ≤ ρ ^ i * D * B := by
  obtain ⟨B, hB, hbd⟩ := h.bounded hA hH hO
  obtain ⟨ρ, hρ, hρ1, hrate⟩ := exists_rate A h.Q hB
  refine ⟨ρ, √B, hρ, hρ1, Real.sqrt_nonneg _, fun m m' D hD h0 y i => ?_⟩
  refine Within.norm_le (P := (L.filt y i).2) (mul_nonneg (pow_nonneg hρ.le i) hD) (hbd y i) ?_
  induction i with
  | zero => rw [pow_zero, one_mul]; exact h0
  | succ i ih =>
    have hM := h.pred (y := y) i
    have h1 := Within.step hM h.R (L.H i) hρ.le (by rw [hA]; exact hrate _ (hbd y i)) (mul_nonneg (pow_nonneg hρ.le i) hD) ih
    rw [StateSpace.filt, StateSpace.filt, StateSpace.filt, filt_cov (y := y), filt_cov (y := y)]
    dsimp only
    have e := condMean_sub hM h.R (L.H i) (L.A i *ᵥ ((L.withPrior m L.P0).filt y i).1 + L.b i)
      (L.A i *ᵥ ((L.withPrior m' L.P0).filt y i).1 + L.b i) (L.c i) (y i)
    rw [add_sub_add_right_eq_sub, ← mulVec_sub, mulVec_mulVec] at e
    rw [← e] at h1
    rw [pow_succ, mul_comm (ρ ^ i), mul_assoc]
    exact h1

/-- The bilinear form is small compared with the standard deviations of two covariances. -/
def Small (E : ℝ) (Δ P P' : Matrix (Fin n) (Fin n) ℝ) : Prop := ∀ u v, |u ⬝ᵥ Δ *ᵥ v| ≤ E * √(quad P u) * √(quad P' v)

theorem exists_small {P P' : Matrix (Fin n) (Fin n) ℝ} (hP : P.PosDef) (hP' : P'.PosDef) : ∃ E, 0 ≤ E ∧ Small E (P - P') P P' := by
  obtain ⟨s, hs, h1⟩ := quad_bound P hP'
  obtain ⟨t, ht, h2⟩ := quad_bound P' hP
  refine ⟨√s + √t, add_nonneg (Real.sqrt_nonneg _) (Real.sqrt_nonneg _), fun u v => ?_⟩
  have h3 : √(quad P v) ≤ √s * √(quad P' v) := by rw [← Real.sqrt_mul hs]; exact Real.sqrt_le_sqrt (h1 v)
  have h4 : √(quad P' u) ≤ √t * √(quad P u) := by rw [← Real.sqrt_mul ht]; exact Real.sqrt_le_sqrt (h2 u)
  rw [sub_mulVec, dotProduct_sub]
  calc _ ≤ |u ⬝ᵥ P *ᵥ v| + |u ⬝ᵥ P' *ᵥ v| := abs_sub _ _
    _ ≤ √(quad P u) * √(quad P v) + √(quad P' u) * √(quad P' v) :=
        add_le_add (abs_le_quad hP.posSemidef u v) (abs_le_quad hP'.posSemidef u v)
    _ ≤ √(quad P u) * (√s * √(quad P' v)) + (√t * √(quad P u)) * √(quad P' v) :=
        add_le_add (mul_le_mul_of_nonneg_left h3 (Real.sqrt_nonneg _)) (mul_le_mul_of_nonneg_right h4 (Real.sqrt_nonneg _))
    _ = _ := by ring

theorem Small.step {A P P' Q : Matrix (Fin n) (Fin n) ℝ} {R : Matrix (Fin k) (Fin k) ℝ} (hM : (A * P * Aᵀ + Q).PosDef)
    (hM' : (A * P' * Aᵀ + Q).PosDef) (hR : R.PosDef) (H : Matrix (Fin k) (Fin n) ℝ) {ρ : ℝ} (hρ : 0 ≤ ρ)
    (h : ∀ v, quad (A * P * Aᵀ) v ≤ ρ ^ 2 * quad (A * P * Aᵀ + Q) v) (h' : ∀ v, quad (A * P' * Aᵀ) v ≤ ρ ^ 2 * quad (A * P' * Aᵀ + Q) v)
    {E : ℝ} (hE : 0 ≤ E) (hd : Small E (P - P') P P') :
    Small (ρ ^ 2 * E) (condCov (A * P * Aᵀ + Q) H R - condCov (A * P' * Aᵀ + Q) H R) (condCov (A * P * Aᵀ + Q) H R)
      (condCov (A * P' * Aᵀ + Q) H R) := fun u v => by
  have hC' := condCov_posDef hM' hR H
  rw [condCov_sub hM hM' hR H]
  set M := A * P * Aᵀ + Q with hMd
  set M' := A * P' * Aᵀ + Q with hMd'
  have h1 := quad_step hM hR H (sq_nonneg ρ) h u
  have h2 := quad_step hM' hR H (sq_nonneg ρ) h' v
  rw [← hMd] at h1
  rw [← hMd'] at h2
  set Φ := condCov M H R * M⁻¹ * A with hΦ
  set Φ' := condCov M' H R * M'⁻¹ * A with hΦ'
  have e : u ⬝ᵥ (condCov M H R * M⁻¹ * (M - M') * (M'⁻¹ * condCov M' H R)) *ᵥ v = (Φᵀ *ᵥ u) ⬝ᵥ (P - P') *ᵥ (Φ'ᵀ *ᵥ v) := by
    have e1 : M - M' = A * (P - P') * Aᵀ := by rw [hMd, hMd', Matrix.mul_sub, Matrix.sub_mul]; abel
    have e2 : M'⁻¹ * condCov M' H R = (condCov M' H R * M'⁻¹)ᵀ := by rw [transpose_mul, posDef_inv_symm hM', posDef_symm hC']
    have e3 : condCov M H R * M⁻¹ * (M - M') * (M'⁻¹ * condCov M' H R) = Φ * (P - P') * Φ'ᵀ := by
      rw [e1, e2, hΦ, hΦ', transpose_mul (condCov M' H R * M'⁻¹)]
      simp only [Matrix.mul_assoc]
    rw [e3, ← mulVec_mulVec, ← mulVec_mulVec, dotProduct_mulVec, ← mulVec_transpose]
  rw [e]
  have h3 : ∀ {a b : ℝ}, a ≤ ρ ^ 2 * b → √a ≤ ρ * √b := fun {a b} hab => by
    calc √a ≤ √(ρ ^ 2 * b) := Real.sqrt_le_sqrt hab
      _ = ρ * √b := by rw [Real.sqrt_mul (sq_nonneg ρ), Real.sqrt_sq hρ]
  calc _ ≤ E * √(quad P (Φᵀ *ᵥ u)) * √(quad P' (Φ'ᵀ *ᵥ v)) := hd _ _
    _ ≤ E * (ρ * √(quad (condCov M H R) u)) * (ρ * √(quad (condCov M' H R) v)) :=
        mul_le_mul (mul_le_mul_of_nonneg_left (h3 h1) hE) (h3 h2) (Real.sqrt_nonneg _)
          (mul_nonneg hE (mul_nonneg hρ (Real.sqrt_nonneg _)))
    _ = _ := by ring

theorem Small.within {E : ℝ} {Δ P P' : Matrix (Fin n) (Fin n) ℝ} (h : Small E Δ P P') (w : Fin n → ℝ) :
    Within (E * √(quad P' w)) (Δ *ᵥ w) P := fun u => (h u w).trans (le_of_eq (by ring))

/-- The estimates stay bounded if the measurements do. -/
theorem Good.bounded_mean (h : L.Good) (hA : ∀ i, L.A i = A) (hb : ∀ i, L.b i = b) (hH : ∀ i, L.H i = H) (hc : ∀ i, L.c i = c)
    (hO : Detectable A L.Q H L.R) (Y : ℝ) :
    ∃ U, 0 ≤ U ∧ ∀ y : ℕ → Fin k → ℝ, (∀ i, ‖y i‖ ≤ Y) → ∀ i, ‖(L.filt y i).1‖ ≤ U := by
  obtain ⟨B, hB, hbd⟩ := h.bounded hA hH hO
  obtain ⟨ρ, hρ, hρ1, hrate⟩ := exists_rate A h.Q hB
  obtain ⟨β, hβ, hβb⟩ := mulVec_bound (Hᵀ * L.R⁻¹)
  obtain ⟨D, hD, hD0⟩ := exists_within h.P0 L.m0
  set W := √(quad L.Q⁻¹ b) + √(B * (n * (β * (Y + ‖c‖)) ^ 2))
  have hW : 0 ≤ W := add_nonneg (Real.sqrt_nonneg _) (Real.sqrt_nonneg _)
  set U := D + W / (1 - ρ)
  have hU : 0 ≤ U := add_nonneg hD (div_nonneg hW (by linarith))
  refine ⟨U * √B, mul_nonneg hU (Real.sqrt_nonneg _), fun y hy i => ?_⟩
  refine Within.norm_le (P := (L.filt y i).2) hU (hbd y i) ?_
  induction i with
  | zero => exact hD0.mono (le_add_of_nonneg_right (div_nonneg hW (by linarith)))
  | succ i ih =>
    have hM := h.pred (y := y) i
    have hC := condCov_posDef hM h.R (L.H i)
    have h1 := Within.step hM h.R (L.H i) hρ.le (by rw [hA]; exact hrate _ (hbd y i)) hU ih
    have hbd' : ∀ u, quad (L.filt y (i + 1)).2 u ≤ B * (u ⬝ᵥ u) := hbd y (i + 1)
    rw [StateSpace.filt] at hbd' ⊢
    dsimp only at hbd' ⊢
    set M := L.A i * (L.filt y i).2 * (L.A i)ᵀ + L.Q with hMd
    set C := condCov M (L.H i) L.R
    have h2 := within_mulVec hC.posSemidef (M⁻¹ *ᵥ L.b i)
    have h3 := within_mulVec hC.posSemidef (((L.H i)ᵀ * L.R⁻¹) *ᵥ (y i - L.c i))
    have e : condMean (L.A i *ᵥ (L.filt y i).1 + L.b i) M (L.H i) (L.c i) L.R (y i) =
        (C * M⁻¹ * L.A i) *ᵥ (L.filt y i).1 + (C *ᵥ (M⁻¹ *ᵥ L.b i) + C *ᵥ (((L.H i)ᵀ * L.R⁻¹) *ᵥ (y i - L.c i))) := by
      rw [condMean_eq hM h.R, mulVec_add, mulVec_mulVec, mulVec_mulVec (L.b i)]; abel
    rw [e]
    refine (h1.add (h2.add h3)).mono ?_
    have g1 : √(quad C (M⁻¹ *ᵥ L.b i)) ≤ √(quad L.Q⁻¹ b) := by
      refine Real.sqrt_le_sqrt ((condCov_le' hM h.R _ _).trans ?_)
      rw [quad_inv hM, hb]
      refine quad_inv_le h.Q hM (fun u => ?_) b
      rw [hMd, quad_add_mat]
      have := quad_nonneg (congr_posSemidef (h.filt (y := y) i).posSemidef (L.A i)) u
      linarith
    have g2 : √(quad C (((L.H i)ᵀ * L.R⁻¹) *ᵥ (y i - L.c i))) ≤ √(B * (n * (β * (Y + ‖c‖)) ^ 2)) := by
      refine Real.sqrt_le_sqrt ((hbd' _).trans (mul_le_mul_of_nonneg_left ((dot_self_le _).trans ?_) hB))
      refine mul_le_mul_of_nonneg_left (pow_le_pow_left₀ (norm_nonneg _) ?_ 2) (Nat.cast_nonneg _)
      rw [hH, hc]
      exact (hβb _).trans (mul_le_mul_of_nonneg_left ((norm_sub_le _ _).trans (add_le_add (hy i) le_rfl)) hβ)
    have g3 : ρ * U + W ≤ U := by
      have : W = (1 - ρ) * (W / (1 - ρ)) := by field_simp [(by linarith : (1 - ρ) ≠ 0)]
      simp only [U]
      nlinarith
    exact le_trans (add_le_add le_rfl (add_le_add g1 g2)) g3

/-- Two priors: estimates and covariances approach each other at a geometric rate if the measurements are bounded. -/
theorem Good.forget (h : L.Good) (hA : ∀ i, L.A i = A) (hb : ∀ i, L.b i = b) (hH : ∀ i, L.H i = H) (hc : ∀ i, L.c i = c)
    (hO : Detectable A L.Q H L.R) (m' : Fin n → ℝ) {P' : Matrix (Fin n) (Fin n) ℝ} (hP' : P'.PosDef) (Y : ℝ) :
    ∃ ρ κ, 0 < ρ ∧ ρ < 1 ∧ ∀ y : ℕ → Fin k → ℝ, (∀ i, ‖y i‖ ≤ Y) → ∀ i,
      ‖(L.filt y i).1 - ((L.withPrior m' P').filt y i).1‖ ≤ κ * ρ ^ i ∧
      ∀ a b, |(L.filt y i).2 a b - ((L.withPrior m' P').filt y i).2 a b| ≤ κ * ρ ^ i := by
  have h' := h.withPrior m' hP'
  obtain ⟨B₁, hB₁, hbd₁⟩ := h.bounded hA hH hO
  obtain ⟨B₂, hB₂, hbd₂⟩ := h'.bounded hA hH hO
  set B := max B₁ B₂
  have hB : 0 ≤ B := hB₁.trans (le_max_left _ _)
  have hbd : ∀ y i u, quad (L.filt y i).2 u ≤ B * (u ⬝ᵥ u) := fun y i u =>
    (hbd₁ y i u).trans (mul_le_mul_of_nonneg_right (le_max_left _ _) (dot_self_nonneg u))
  have hbd' : ∀ y i u, quad ((L.withPrior m' P').filt y i).2 u ≤ B * (u ⬝ᵥ u) := fun y i u =>
    (hbd₂ y i u).trans (mul_le_mul_of_nonneg_right (le_max_right _ _) (dot_self_nonneg u))
  obtain ⟨ρ, hρ, hρ1, hrate⟩ := exists_rate A h.Q hB
  obtain ⟨U, hU, hmean⟩ := h'.bounded_mean hA hb hH hc hO Y
  obtain ⟨E, hE, hE0⟩ := exists_small h.P0 hP'
  obtain ⟨D, hD, hD0⟩ := exists_within h.P0 (L.m0 - m')
  obtain ⟨β, hβ, hβb⟩ := mulVec_bound (Hᵀ * L.R⁻¹)
  obtain ⟨γ, hγ, hγb⟩ := mulVec_bound H
  obtain ⟨α, hα, hαb⟩ := mulVec_bound A
  set V := √(B * (n * (β * (Y + (γ * (α * U + ‖b‖) + ‖c‖))) ^ 2))
  have hV : 0 ≤ V := Real.sqrt_nonneg _
  have hcov : ∀ y i, Small (ρ ^ (2 * i) * E) ((L.filt y i).2 - ((L.withPrior m' P').filt y i).2) (L.filt y i).2
      ((L.withPrior m' P').filt y i).2 := fun y i => by
    induction i with
    | zero => rw [mul_zero, pow_zero, one_mul]; exact hE0
    | succ i ih =>
      have h1 := Small.step (h.pred (y := y) i) (h'.pred (y := y) i) h.R (L.H i) hρ.le (by rw [hA]; exact hrate _ (hbd y i))
        (by rw [hA]; exact hrate _ (hbd' y i)) (mul_nonneg (pow_nonneg hρ.le _) hE) ih
      rw [show ρ ^ (2 * (i + 1)) * E = ρ ^ 2 * (ρ ^ (2 * i) * E) by ring]
      exact h1
  have hinc : ∀ y : ℕ → Fin k → ℝ, (∀ i, ‖y i‖ ≤ Y) → ∀ i,
      Within (ρ ^ i * (D + E * V * (1 - ρ ^ (i + 1)) / (1 - ρ))) ((L.filt y i).1 - ((L.withPrior m' P').filt y i).1) (L.filt y i).2 :=
    fun y hy i => by
    have h1ρ : 0 < 1 - ρ := by linarith
    have hpos : ∀ i, 0 ≤ E * V * (1 - ρ ^ (i + 1)) / (1 - ρ) := fun i =>
      div_nonneg (mul_nonneg (mul_nonneg hE hV) (by have := pow_le_one₀ (n := i + 1) hρ.le hρ1.le; linarith)) h1ρ.le
    induction i with
    | zero =>
      rw [pow_zero, one_mul]
      exact hD0.mono (le_add_of_nonneg_right (hpos 0))
    | succ i ih =>
      have hM := h.pred (y := y) i
      have hM' := h'.pred (y := y) i
      have h1 := Within.step hM h.R (L.H i) hρ.le (by rw [hA]; exact hrate _ (hbd y i))
        (mul_nonneg (pow_nonneg hρ.le i) (add_nonneg hD (hpos i))) ih
      have h2 := (hcov y (i + 1)).within ((((L.H i)ᵀ * L.R⁻¹) *ᵥ (y i - (L.H i *ᵥ (L.A i *ᵥ ((L.withPrior m' P').filt y i).1 + L.b i) + L.c i))))
      have g2 : √(quad ((L.withPrior m' P').filt y (i + 1)).2
          ((((L.H i)ᵀ * L.R⁻¹) *ᵥ (y i - (L.H i *ᵥ (L.A i *ᵥ ((L.withPrior m' P').filt y i).1 + L.b i) + L.c i))))) ≤ V := by
        refine Real.sqrt_le_sqrt ((hbd' y (i + 1) _).trans (mul_le_mul_of_nonneg_left ((dot_self_le _).trans ?_) hB))
        refine mul_le_mul_of_nonneg_left (pow_le_pow_left₀ (norm_nonneg _) ?_ 2) (Nat.cast_nonneg _)
        rw [hH, hc, hA, hb]
        refine (hβb _).trans (mul_le_mul_of_nonneg_left ((norm_sub_le _ _).trans (add_le_add (hy i) ?_)) hβ)
        refine (norm_add_le _ _).trans (add_le_add ((hγb _).trans (mul_le_mul_of_nonneg_left ?_ hγ)) le_rfl)
        refine (norm_add_le _ _).trans (add_le_add ((hαb _).trans (mul_le_mul_of_nonneg_left ?_ hα)) le_rfl)
        exact hmean y hy i
      have e := condMean_sub' hM hM' h.R (L.H i) (L.A i *ᵥ (L.filt y i).1 + L.b i)
        (L.A i *ᵥ ((L.withPrior m' P').filt y i).1 + L.b i) (L.c i) (y i)
      rw [add_sub_add_right_eq_sub, ← mulVec_sub, mulVec_mulVec] at e
      have h3 := h1.add (h2.mono (mul_le_mul_of_nonneg_left g2 (mul_nonneg (pow_nonneg hρ.le _) hE)))
      have e' : (L.filt y (i + 1)).1 - ((L.withPrior m' P').filt y (i + 1)).1 =
          (condCov (L.A i * (L.filt y i).2 * (L.A i)ᵀ + L.Q) (L.H i) L.R * (L.A i * (L.filt y i).2 * (L.A i)ᵀ + L.Q)⁻¹ * L.A i) *ᵥ
            ((L.filt y i).1 - ((L.withPrior m' P').filt y i).1) + ((L.filt y (i + 1)).2 - ((L.withPrior m' P').filt y (i + 1)).2) *ᵥ
            ((((L.H i)ᵀ * L.R⁻¹) *ᵥ (y i - (L.H i *ᵥ (L.A i *ᵥ ((L.withPrior m' P').filt y i).1 + L.b i) + L.c i)))) := e
      rw [e']
      refine Within.mono (le_of_eq ?_) h3
      field_simp
      ring
  refine ⟨ρ, max ((D + E * V / (1 - ρ)) * √B) (E * B), hρ, hρ1, fun y hy i => ⟨?_, fun a b => ?_⟩⟩
  · have h1ρ : 0 < 1 - ρ := by linarith
    have hle : E * V * (1 - ρ ^ (i + 1)) / (1 - ρ) ≤ E * V / (1 - ρ) := by
      refine div_le_div_of_nonneg_right ?_ h1ρ.le
      exact mul_le_of_le_one_right (mul_nonneg hE hV) (by have := pow_nonneg hρ.le (i + 1); linarith)
    have hle2 : ρ ^ i * (D + E * V * (1 - ρ ^ (i + 1)) / (1 - ρ)) ≤ ρ ^ i * (D + E * V / (1 - ρ)) :=
      mul_le_mul_of_nonneg_left (add_le_add le_rfl hle) (pow_nonneg hρ.le i)
    have h1 := Within.norm_le (mul_nonneg (pow_nonneg hρ.le i) (add_nonneg hD (div_nonneg (mul_nonneg hE hV) h1ρ.le))) (hbd y i)
      ((hinc y hy i).mono hle2)
    calc _ ≤ _ := h1
      _ = (D + E * V / (1 - ρ)) * √B * ρ ^ i := by ring
      _ ≤ _ := mul_le_mul_of_nonneg_right (le_max_left _ _) (pow_nonneg hρ.le i)
  · have h1 := hcov y i (Pi.single a 1) (Pi.single b 1)
    have hs : ∀ (P : Matrix (Fin n) (Fin n) ℝ) (a : Fin n), (∀ u, quad P u ≤ B * (u ⬝ᵥ u)) → √(quad P (Pi.single a 1)) ≤ √B := fun P a hP => by
      refine Real.sqrt_le_sqrt ((hP _).trans (le_of_eq ?_))
      rw [single_dotProduct, one_mul, Pi.single_eq_same, mul_one]
    rw [single_dotProduct, one_mul, mulVec_single_one] at h1
    calc |(L.filt y i).2 a b - ((L.withPrior m' P').filt y i).2 a b| ≤ _ := h1
      _ ≤ ρ ^ (2 * i) * E * √B * √B := by
        have hE' : 0 ≤ ρ ^ (2 * i) * E := mul_nonneg (pow_nonneg hρ.le _) hE
        exact mul_le_mul (mul_le_mul_of_nonneg_left (hs _ a (hbd y i)) hE') (hs _ b (hbd' y i)) (Real.sqrt_nonneg _)
          (mul_nonneg hE' (Real.sqrt_nonneg _))
      _ = E * B * (ρ ^ i * ρ ^ i) := by
        rw [mul_assoc _ √B, Real.mul_self_sqrt hB, ← pow_add, two_mul]; ring
      _ ≤ E * B * ρ ^ i := mul_le_mul_of_nonneg_left (mul_le_of_le_one_left (pow_nonneg hρ.le i) (pow_le_one₀ hρ.le hρ1.le)) (mul_nonneg hE hB)
      _ ≤ _ := mul_le_mul_of_nonneg_right (le_max_right _ _) (pow_nonneg hρ.le i)

end StateSpace

end Verif
