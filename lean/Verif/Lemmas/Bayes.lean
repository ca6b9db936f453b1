import Verif.Lemmas.LinAlg
import Mathlib.Analysis.Matrix.PosDef
import Mathlib.LinearAlgebra.Matrix.PosDef

/-! Matrix identities behind Gaussian conditioning and marginalisation. -/

namespace Verif

open Matrix

variable {n k : ℕ}

/-- The quadratic form `xᵀ A x`. -/
def quad (A : Matrix (Fin n) (Fin n) ℝ) (x : Fin n → ℝ) : ℝ := x ⬝ᵥ A *ᵥ x

theorem congr_posSemidef {P : Matrix (Fin n) (Fin n) ℝ} (hP : P.PosSemidef) (A : Matrix (Fin k) (Fin n) ℝ) :
    (A * P * Aᵀ).PosSemidef := by
  have := hP.mul_mul_conjTranspose_same A
  simpa using this

theorem innov_posDef {P : Matrix (Fin n) (Fin n) ℝ} (hP : P.PosSemidef) {R : Matrix (Fin k) (Fin k) ℝ} (hR : R.PosDef)
    (H : Matrix (Fin k) (Fin n) ℝ) : (H * P * Hᵀ + R).PosDef :=
  Matrix.PosDef.posSemidef_add (congr_posSemidef hP H) hR

theorem posDef_det_ne {P : Matrix (Fin n) (Fin n) ℝ} (hP : P.PosDef) : P.det ≠ 0 := hP.det_pos.ne'
theorem posDef_isUnit {P : Matrix (Fin n) (Fin n) ℝ} (hP : P.PosDef) : IsUnit P.det := (posDef_det_ne hP).isUnit

theorem posDef_mul_inv {P : Matrix (Fin n) (Fin n) ℝ} (hP : P.PosDef) : P * P⁻¹ = 1 := mul_nonsing_inv _ (posDef_isUnit hP)
theorem posDef_inv_mul {P : Matrix (Fin n) (Fin n) ℝ} (hP : P.PosDef) : P⁻¹ * P = 1 := nonsing_inv_mul _ (posDef_isUnit hP)
theorem posDef_inv_symm {P : Matrix (Fin n) (Fin n) ℝ} (hP : P.PosDef) : (P⁻¹)ᵀ = P⁻¹ := posDef_symm hP.inv

/-- The covariance after conditioning `N(·, P)` on `H x` observed with noise `R`. -/
noncomputable def condCov (P : Matrix (Fin n) (Fin n) ℝ) (H : Matrix (Fin k) (Fin n) ℝ) (R : Matrix (Fin k) (Fin k) ℝ) :
    Matrix (Fin n) (Fin n) ℝ := P - P * Hᵀ * (H * P * Hᵀ + R)⁻¹ * (P * Hᵀ)ᵀ

/-- The gain. -/
noncomputable def gainMat (P : Matrix (Fin n) (Fin n) ℝ) (H : Matrix (Fin k) (Fin n) ℝ) (R : Matrix (Fin k) (Fin k) ℝ) :
    Matrix (Fin n) (Fin k) ℝ := P * Hᵀ * (H * P * Hᵀ + R)⁻¹

/-- The mean after conditioning `N(m, P)` on `H x + c = y` observed with noise `R`. -/
noncomputable def condMean (m : Fin n → ℝ) (P : Matrix (Fin n) (Fin n) ℝ) (H : Matrix (Fin k) (Fin n) ℝ) (c : Fin k → ℝ)
    (R : Matrix (Fin k) (Fin k) ℝ) (y : Fin k → ℝ) : Fin n → ℝ := m + gainMat P H R *ᵥ (y - (H *ᵥ m + c))

variable {P : Matrix (Fin n) (Fin n) ℝ} {R : Matrix (Fin k) (Fin k) ℝ}

/-- The information form of conditioning (Woodbury). -/
theorem info_mul_condCov (hP : P.PosDef) (hR : R.PosDef) (H : Matrix (Fin k) (Fin n) ℝ) :
    (P⁻¹ + Hᵀ * R⁻¹ * H) * condCov P H R = 1 := by
  have hS := innov_posDef hP.posSemidef hR H
  set S := H * P * Hᵀ + R with hSd
  have hPt : (P * Hᵀ)ᵀ = H * P := by rw [transpose_mul, transpose_transpose, posDef_symm hP]
  have e1 : P⁻¹ * P = 1 := posDef_inv_mul hP
  have e2 : R⁻¹ * (H * P * Hᵀ) = R⁻¹ * S - 1 := by
    rw [hSd, Matrix.mul_add, posDef_inv_mul hR, add_sub_cancel_right]
  have e3 : S * S⁻¹ = 1 := posDef_mul_inv hS
  have key : Hᵀ * R⁻¹ * H * (P * Hᵀ * S⁻¹ * (H * P)) = Hᵀ * R⁻¹ * (H * P) - Hᵀ * S⁻¹ * (H * P) := by
    calc Hᵀ * R⁻¹ * H * (P * Hᵀ * S⁻¹ * (H * P)) = Hᵀ * (R⁻¹ * (H * P * Hᵀ)) * S⁻¹ * (H * P) := by
          simp only [Matrix.mul_assoc]
      _ = Hᵀ * (R⁻¹ * (S * S⁻¹)) * (H * P) - Hᵀ * S⁻¹ * (H * P) := by
          rw [e2]; simp only [Matrix.mul_sub, Matrix.sub_mul, Matrix.mul_one, Matrix.mul_assoc]
      _ = _ := by rw [e3, Matrix.mul_one]
  rw [condCov, ← hSd, hPt, Matrix.add_mul, Matrix.mul_sub, Matrix.mul_sub, key, e1]
  have e4 : P⁻¹ * (P * Hᵀ * S⁻¹ * (H * P)) = Hᵀ * S⁻¹ * (H * P) := by
    simp only [← Matrix.mul_assoc, e1, Matrix.one_mul]
  rw [e4]
  simp only [Matrix.mul_assoc]
  abel

theorem info_posDef (hP : P.PosDef) (hR : R.PosDef) (H : Matrix (Fin k) (Fin n) ℝ) :
    (P⁻¹ + Hᵀ * R⁻¹ * H).PosDef := by
  have h := congr_posSemidef hR.inv.posSemidef Hᵀ
  rw [transpose_transpose] at h
  exact Matrix.PosDef.add_posSemidef hP.inv h

theorem condCov_eq_inv (hP : P.PosDef) (hR : R.PosDef) (H : Matrix (Fin k) (Fin n) ℝ) :
    condCov P H R = (P⁻¹ + Hᵀ * R⁻¹ * H)⁻¹ := (inv_eq_right_inv (info_mul_condCov hP hR H)).symm

theorem condCov_inv (hP : P.PosDef) (hR : R.PosDef) (H : Matrix (Fin k) (Fin n) ℝ) :
    (condCov P H R)⁻¹ = P⁻¹ + Hᵀ * R⁻¹ * H := inv_eq_left_inv (info_mul_condCov hP hR H)

theorem condCov_posDef (hP : P.PosDef) (hR : R.PosDef) (H : Matrix (Fin k) (Fin n) ℝ) : (condCov P H R).PosDef := by
  rw [condCov_eq_inv hP hR]; exact (info_posDef hP hR H).inv

/-- `Λ K = Hᵀ R⁻¹`. -/
theorem info_mul_gain (hP : P.PosDef) (hR : R.PosDef) (H : Matrix (Fin k) (Fin n) ℝ) :
    (P⁻¹ + Hᵀ * R⁻¹ * H) * gainMat P H R = Hᵀ * R⁻¹ := by
  have hS := innov_posDef hP.posSemidef hR H
  set S := H * P * Hᵀ + R with hSd
  have e2 : R⁻¹ * (H * P * Hᵀ) = R⁻¹ * S - 1 := by
    rw [hSd, Matrix.mul_add, posDef_inv_mul hR, add_sub_cancel_right]
  have e3 : S * S⁻¹ = 1 := posDef_mul_inv hS
  rw [gainMat, ← hSd, Matrix.add_mul]
  have e4 : P⁻¹ * (P * Hᵀ * S⁻¹) = Hᵀ * S⁻¹ := by
    simp only [← Matrix.mul_assoc, posDef_inv_mul hP, Matrix.one_mul]
  have e5 : Hᵀ * R⁻¹ * H * (P * Hᵀ * S⁻¹) = Hᵀ * R⁻¹ - Hᵀ * S⁻¹ := by
    calc Hᵀ * R⁻¹ * H * (P * Hᵀ * S⁻¹) = Hᵀ * (R⁻¹ * (H * P * Hᵀ)) * S⁻¹ := by simp only [Matrix.mul_assoc]
      _ = Hᵀ * (R⁻¹ * (S * S⁻¹)) - Hᵀ * S⁻¹ := by
          rw [e2]; simp only [Matrix.mul_sub, Matrix.sub_mul, Matrix.mul_one, Matrix.mul_assoc]
      _ = _ := by rw [e3, Matrix.mul_one]
  rw [e4, e5]; abel

/-- The shift of the conditioned Gaussian. -/
theorem info_mulVec_condMean (hP : P.PosDef) (hR : R.PosDef) (H : Matrix (Fin k) (Fin n) ℝ) (m : Fin n → ℝ) (c y : Fin k → ℝ) :
    (condCov P H R)⁻¹ *ᵥ condMean m P H c R y = P⁻¹ *ᵥ m + (Hᵀ * R⁻¹) *ᵥ (y - c) := by
  rw [condCov_inv hP hR, condMean, mulVec_add, mulVec_mulVec, info_mul_gain hP hR, add_mulVec]
  have : y - (H *ᵥ m + c) = (y - c) - H *ᵥ m := by abel
  rw [this, mulVec_sub, ← mulVec_mulVec _ (Hᵀ * R⁻¹) H]
  abel

theorem dot_symm {A : Matrix (Fin n) (Fin n) ℝ} (hA : Aᵀ = A) (x y : Fin n → ℝ) : x ⬝ᵥ A *ᵥ y = y ⬝ᵥ A *ᵥ x := by
  rw [dotProduct_mulVec, dotProduct_comm, ← mulVec_transpose, hA]

theorem quad_sub {A : Matrix (Fin n) (Fin n) ℝ} (hA : Aᵀ = A) (x y : Fin n → ℝ) :
    quad A (x - y) = quad A x - 2 * (x ⬝ᵥ A *ᵥ y) + quad A y := by
  simp only [quad, mulVec_sub, sub_dotProduct, dotProduct_sub]
  rw [dot_symm hA y x]
  ring

theorem quad_add {A : Matrix (Fin n) (Fin n) ℝ} (hA : Aᵀ = A) (x y : Fin n → ℝ) :
    quad A (x + y) = quad A x + 2 * (x ⬝ᵥ A *ᵥ y) + quad A y := by
  simp only [quad, mulVec_add, add_dotProduct, dotProduct_add]
  rw [dot_symm hA y x]
  ring

theorem quad_neg (A : Matrix (Fin n) (Fin n) ℝ) (x : Fin n → ℝ) : quad A (-x) = quad A x := by
  simp [quad, mulVec_neg]

theorem quad_add_mat (A B : Matrix (Fin n) (Fin n) ℝ) (x : Fin n → ℝ) : quad (A + B) x = quad A x + quad B x := by
  simp [quad, add_mulVec]

theorem quad_congr (A : Matrix (Fin k) (Fin k) ℝ) (H : Matrix (Fin k) (Fin n) ℝ) (x : Fin n → ℝ) :
    quad (Hᵀ * A * H) x = quad A (H *ᵥ x) := by
  simp only [quad]
  rw [← mulVec_mulVec, ← mulVec_mulVec, mulVec_transpose, dotProduct_comm, ← dotProduct_mulVec, dotProduct_comm]

theorem posDef_iff_quad {A : Matrix (Fin n) (Fin n) ℝ} : A.PosDef ↔ Aᵀ = A ∧ ∀ x ≠ 0, 0 < quad A x := posDef_iff_real
theorem posSemidef_iff_quad {A : Matrix (Fin n) (Fin n) ℝ} : A.PosSemidef ↔ Aᵀ = A ∧ ∀ x, 0 ≤ quad A x := posSemidef_iff_real

/-- The inverse innovation covariance in terms of the noise precision: `S⁻¹ = R⁻¹ − R⁻¹ H C Hᵀ R⁻¹`. -/
theorem innov_inv (hP : P.PosDef) (hR : R.PosDef) (H : Matrix (Fin k) (Fin n) ℝ) :
    (H * P * Hᵀ + R)⁻¹ = R⁻¹ - R⁻¹ * H * condCov P H R * Hᵀ * R⁻¹ := by
  have hS := innov_posDef hP.posSemidef hR H
  have hC := condCov_posDef hP hR H
  set S := H * P * Hᵀ + R with hSd
  set C := condCov P H R with hCd
  -- C Hᵀ R⁻¹ = K
  have hK : C * Hᵀ * R⁻¹ = P * Hᵀ * S⁻¹ := by
    have h1 := info_mul_gain hP hR H
    rw [← condCov_inv hP hR H, ← hCd] at h1
    calc C * Hᵀ * R⁻¹ = C * (C⁻¹ * gainMat P H R) := by rw [h1]; simp only [Matrix.mul_assoc]
      _ = gainMat P H R := by rw [← Matrix.mul_assoc, posDef_mul_inv hC, Matrix.one_mul]
      _ = _ := rfl
  have e2 : R⁻¹ * (H * P * Hᵀ) = R⁻¹ * S - 1 := by
    rw [hSd, Matrix.mul_add, posDef_inv_mul hR, add_sub_cancel_right]
  have : R⁻¹ * H * C * Hᵀ * R⁻¹ = R⁻¹ - S⁻¹ := by
    calc R⁻¹ * H * C * Hᵀ * R⁻¹ = R⁻¹ * H * (C * Hᵀ * R⁻¹) := by simp only [Matrix.mul_assoc]
      _ = R⁻¹ * (H * P * Hᵀ) * S⁻¹ := by rw [hK]; simp only [Matrix.mul_assoc]
      _ = R⁻¹ * (S * S⁻¹) - S⁻¹ := by
        rw [e2]; simp only [Matrix.sub_mul, Matrix.one_mul, Matrix.mul_assoc]
      _ = _ := by rw [posDef_mul_inv hS, Matrix.mul_one]
  rw [this]; abel

/-- **Completion of squares.** The exponent of prior times likelihood equals the exponent of posterior times evidence. -/
theorem bayes_quad (hP : P.PosDef) (hR : R.PosDef) (H : Matrix (Fin k) (Fin n) ℝ) (m : Fin n → ℝ) (c y : Fin k → ℝ)
    (x : Fin n → ℝ) :
    quad P⁻¹ (x - m) + quad R⁻¹ (y - (H *ᵥ x + c)) =
      quad (condCov P H R)⁻¹ (x - condMean m P H c R y) + quad (H * P * Hᵀ + R)⁻¹ (y - (H *ᵥ m + c)) := by
  have hC := condCov_posDef hP hR H
  set C := condCov P H R with hCd
  set e := y - (H *ᵥ m + c) with he
  set d := x - m with hd
  have h1 : y - (H *ᵥ x + c) = e - H *ᵥ d := by
    rw [he, hd, mulVec_sub]; abel
  have h2 : x - condMean m P H c R y = d - gainMat P H R *ᵥ e := by
    rw [condMean, hd, ← he]; abel
  have hCK : C⁻¹ *ᵥ gainMat P H R *ᵥ e = (Hᵀ * R⁻¹) *ᵥ e := by
    rw [mulVec_mulVec, hCd, condCov_inv hP hR, info_mul_gain hP hR]
  have hK : gainMat P H R = C * Hᵀ * R⁻¹ := by
    have h1 := info_mul_gain hP hR H
    rw [← condCov_inv hP hR H, ← hCd] at h1
    rw [Matrix.mul_assoc, ← h1, ← Matrix.mul_assoc, posDef_mul_inv hC, Matrix.one_mul]
  rw [h1, h2, quad_sub (posDef_inv_symm hR), quad_sub (posDef_inv_symm hC), innov_inv hP hR, ← hCd, hCK]
  have h3 : quad C⁻¹ d = quad P⁻¹ d + quad R⁻¹ (H *ᵥ d) := by
    rw [hCd, condCov_inv hP hR, quad_add_mat, quad_congr]
  have h4 : e ⬝ᵥ R⁻¹ *ᵥ H *ᵥ d = d ⬝ᵥ (Hᵀ * R⁻¹) *ᵥ e := by
    rw [dot_symm (posDef_inv_symm hR), ← mulVec_mulVec, mulVec_transpose, dotProduct_comm, dotProduct_comm d,
      ← dotProduct_mulVec]
  have h5 : quad C⁻¹ (gainMat P H R *ᵥ e) = quad (R⁻¹ * H * C * Hᵀ * R⁻¹) e := by
    have : R⁻¹ * H * C * Hᵀ * R⁻¹ = (gainMat P H R)ᵀ * C⁻¹ * gainMat P H R := by
      rw [hK]
      simp only [transpose_mul, transpose_transpose, posDef_inv_symm hR, posDef_symm hC]
      calc R⁻¹ * H * C * Hᵀ * R⁻¹ = R⁻¹ * (H * C) * (Hᵀ * R⁻¹) := by simp only [Matrix.mul_assoc]
        _ = R⁻¹ * (H * C) * (C⁻¹ * C) * (Hᵀ * R⁻¹) := by rw [posDef_inv_mul hC, Matrix.mul_one]
        _ = _ := by simp only [Matrix.mul_assoc]
    rw [this, quad_congr]
  have h6 : quad (R⁻¹ - R⁻¹ * H * C * Hᵀ * R⁻¹) e = quad R⁻¹ e - quad (R⁻¹ * H * C * Hᵀ * R⁻¹) e := by
    simp [quad, sub_mulVec]
  rw [h3, h4, h5, h6]
  ring

end Verif
