import Verif.Model.LinAlg
import Verif.Lemmas.Arr

/-! Bridge lemmas for the linear algebra helpers on well-shaped arguments. -/

namespace Verif

open Matrix

@[simp] theorem ok_bind {α β : Type} (a : α) (f : α → Py β) : ((Except.ok a : Py α) >>= f) = f a := rfl
@[simp] theorem error_bind {α β : Type} (e : Err) (f : α → Py β) : ((Except.error e : Py α) >>= f) = .error e := rfl
@[simp] theorem py_pure {α : Type} (a : α) : (pure a : Py α) = .ok a := rfl
@[simp] theorem ok_map {α β : Type} (a : α) (f : α → β) : (f <$> (Except.ok a : Py α)) = .ok (f a) := rfl
@[simp] theorem error_map {α β : Type} (e : Err) (f : α → β) : (f <$> (Except.error e : Py α)) = .error e := rfl

@[simp] theorem tryBare_ok {α : Type} (a : α) (y : Py α) : tryBare (.ok a) y = .ok a := rfl
@[simp] theorem tryBare_error {α : Type} (e : Err) (y : Py α) : tryBare (.error e) y = y := rfl

theorem lowerSym_of_symm {n} {A : Matrix (Fin n) (Fin n) ℝ} (h : Aᵀ = A) : lowerSym A = A := by
  ext i j
  unfold lowerSym
  split
  · rfl
  · exact congrFun (congrFun h i) j

theorem upperSym_of_symm {n} {A : Matrix (Fin n) (Fin n) ℝ} (h : Aᵀ = A) : upperSym A = A := by
  ext i j
  unfold upperSym
  split
  · rfl
  · exact congrFun (congrFun h i) j

theorem lowerSym_symm {n} (A : Matrix (Fin n) (Fin n) ℝ) : (lowerSym A)ᵀ = lowerSym A := by
  ext i j
  simp only [transpose_apply, lowerSym]
  rcases lt_trichotomy i j with h | h | h
  · rw [if_pos h.le, if_neg (not_le.2 h)]
  · subst h; rfl
  · rw [if_neg (not_le.2 h), if_pos h.le]

theorem posDef_symm {n} {A : Matrix (Fin n) (Fin n) ℝ} (h : A.PosDef) : Aᵀ = A := (posDef_iff_real.1 h).1
theorem posSemidef_symm {n} {A : Matrix (Fin n) (Fin n) ℝ} (h : A.PosSemidef) : Aᵀ = A := (posSemidef_iff_real.1 h).1

theorem cholU_spec {n} {A : Matrix (Fin n) (Fin n) ℝ} (h : A.PosDef) : IsUpperChol A (cholU h) :=
  Classical.choose_spec (exists_upperChol h)

theorem npCholesky_m {n} (A : Matrix (Fin n) (Fin n) ℝ) :
    npCholesky (.m A) = .ok () ↔ (lowerSym A).PosDef := by
  simp [npCholesky]

theorem npCholesky_cases {n} (A : Matrix (Fin n) (Fin n) ℝ) :
    ((lowerSym A).PosDef ∧ npCholesky (.m A) = .ok ()) ∨ (¬ (lowerSym A).PosDef ∧ npCholesky (.m A) = .error .linAlg) := by
  by_cases h : (lowerSym A).PosDef
  · exact .inl ⟨h, by simp [npCholesky, h]⟩
  · exact .inr ⟨h, by simp [npCholesky, h]⟩

@[simp] theorem npCholesky_posDef {n} {A : Matrix (Fin n) (Fin n) ℝ} (h : A.PosDef) : npCholesky (.m A) = .ok () := by
  rw [npCholesky_m, lowerSym_of_symm (posDef_symm h)]; exact h

/-- Any argument: `npCholesky` either succeeds or raises `LinAlgError`. -/
theorem npCholesky_total (a : Arr) : npCholesky a = .ok () ∨ npCholesky a = .error .linAlg := by
  cases a with
  | s => exact .inr rfl
  | v => exact .inr rfl
  | m A => simp only [npCholesky]; split_ifs <;> simp

@[simp] theorem symmetrize_m {n} (A : Matrix (Fin n) (Fin n) ℝ) :
    symmetrize (.m A) = .ok (.m ((2 : ℝ)⁻¹ • (A + Aᵀ))) := by
  simp [symmetrize]

theorem half_add_self {n} {A : Matrix (Fin n) (Fin n) ℝ} (h : Aᵀ = A) : (2 : ℝ)⁻¹ • (A + Aᵀ) = A := by
  rw [h]; ext i j; simp [Matrix.smul_apply, Matrix.add_apply]; ring

theorem symmetrize_symm {n} {A : Matrix (Fin n) (Fin n) ℝ} (h : Aᵀ = A) : symmetrize (.m A) = .ok (.m A) := by
  rw [symmetrize_m, half_add_self h]

theorem half_add_transpose_symm {n} (A : Matrix (Fin n) (Fin n) ℝ) :
    ((2 : ℝ)⁻¹ • (A + Aᵀ))ᵀ = (2 : ℝ)⁻¹ • (A + Aᵀ) := by
  rw [transpose_smul, transpose_add, transpose_transpose, add_comm]

theorem spSolvePos_eye {env : Env} {n} {A : Matrix (Fin n) (Fin n) ℝ} (h : A.PosDef) (hi : env.illPos A = false) :
    spSolvePos env (.m A) (Arr.eye n) = .ok (.m A⁻¹) := by
  simp [spSolvePos, Arr.eye, upperSym_of_symm (posDef_symm h), h, hi]

theorem spSolvePos_ill {env : Env} {n} {A : Matrix (Fin n) (Fin n) ℝ} (h : A.PosDef) (hi : env.illPos A = true) :
    spSolvePos env (.m A) (Arr.eye n) = .error .linAlgWarning := by
  simp [spSolvePos, Arr.eye, upperSym_of_symm (posDef_symm h), h, hi]

theorem spSolvePos_not {env : Env} {n} {A : Matrix (Fin n) (Fin n) ℝ} (h : ¬ (upperSym A).PosDef) :
    spSolvePos env (.m A) (Arr.eye n) = .error .linAlg := by
  simp [spSolvePos, Arr.eye, h]

theorem spSolveGen_eye {env : Env} {n} {A : Matrix (Fin n) (Fin n) ℝ} (h : A.det ≠ 0) (hi : env.illGen A = false) :
    spSolveGen env (.m A) (Arr.eye n) = .ok (.m A⁻¹) := by
  simp [spSolveGen, Arr.eye, h, hi]

/-- The matrix whose inverse the jittered solve computes. -/
noncomputable def jitMat {n} (A : Matrix (Fin n) (Fin n) ℝ) : Matrix (Fin n) (Fin n) ℝ :=
  (2 : ℝ)⁻¹ • (A + Aᵀ) + JIT • (1 : Matrix (Fin n) (Fin n) ℝ)

@[simp] theorem jitter_m {n} (A : Matrix (Fin n) (Fin n) ℝ) : jitter (.m A) = .ok (.m (jitMat A)) := by
  simp [jitter, Arr.eye, jitMat]

theorem JIT_pos : 0 < JIT := by unfold JIT; positivity

theorem jitMat_symm {n} (A : Matrix (Fin n) (Fin n) ℝ) : (jitMat A)ᵀ = jitMat A := by
  rw [jitMat, transpose_add, half_add_transpose_symm, transpose_smul, transpose_one]

theorem jitMat_posDef {n} {A : Matrix (Fin n) (Fin n) ℝ} (h : A.PosSemidef) : (jitMat A).PosDef := by
  rw [jitMat, half_add_self (posSemidef_symm h)]
  exact Matrix.PosDef.posSemidef_add h (Matrix.PosDef.smul Matrix.PosDef.one JIT_pos)

theorem jitMat_of_symm {n} {A : Matrix (Fin n) (Fin n) ℝ} (h : Aᵀ = A) :
    jitMat A = A + JIT • (1 : Matrix (Fin n) (Fin n) ℝ) := by
  rw [jitMat, half_add_self h]

/-- What `scipy.linalg.solve(A, eye(n))` computes on a square matrix, if anything. -/
theorem spSolvePos_eye_cases (env : Env) {n} (A : Matrix (Fin n) (Fin n) ℝ) :
    spSolvePos env (.m A) (Arr.eye n) = .ok (.m (upperSym A)⁻¹) ∨
      ∃ e, spSolvePos env (.m A) (Arr.eye n) = .error e := by
  by_cases h : (upperSym A).PosDef
  · by_cases hi : env.illPos (upperSym A) = true
    · exact .inr ⟨.linAlgWarning, by simp [spSolvePos, Arr.eye, h, hi]⟩
    · exact .inl (by simp [spSolvePos, Arr.eye, h, hi])
  · exact .inr ⟨_, spSolvePos_not h⟩

theorem spSolveGen_eye_cases (env : Env) {n} (A : Matrix (Fin n) (Fin n) ℝ) :
    spSolveGen env (.m A) (Arr.eye n) = .ok (.m A⁻¹) ∨
      ∃ e, spSolveGen env (.m A) (Arr.eye n) = .error e := by
  by_cases h : A.det = 0
  · exact .inr ⟨.linAlg, by simp [spSolveGen, Arr.eye, h]⟩
  · by_cases hi : env.illGen A = true
    · exact .inr ⟨.linAlgWarning, by simp [spSolveGen, Arr.eye, h, hi]⟩
    · exact .inl (by simp [spSolveGen, Arr.eye, h, hi])

@[simp] theorem npSolve_mm {n k} {A : Matrix (Fin n) (Fin n) ℝ} (B : Matrix (Fin n) (Fin k) ℝ) (h : A.det ≠ 0) :
    npSolve (.m A) (.m B) = .ok (.m (A⁻¹ * B)) := by
  simp [npSolve, h]

theorem npSolve_singular {n k} {A : Matrix (Fin n) (Fin n) ℝ} (B : Matrix (Fin n) (Fin k) ℝ) (h : A.det = 0) :
    npSolve (.m A) (.m B) = .error .linAlg := by
  simp [npSolve, h]

theorem spCholeskyU_m {n} {A : Matrix (Fin n) (Fin n) ℝ} (h : A.PosDef) :
    spCholeskyU (.m A) = .ok (.m (cholU h)) := by
  have e : upperSym A = A := upperSym_of_symm (posDef_symm h)
  have h' : (upperSym A).PosDef := by rw [e]; exact h
  have : spCholeskyU (.m A) = .ok (.m (cholU h')) := by
    simp only [spCholeskyU, Arr.atleast2d_m, dif_pos]
    rw [dif_pos (show (upperSym (A.submatrix id (Fin.cast rfl))).PosDef from h')]
    rfl
  rw [this]
  have hc : ∀ B (hB : B.PosDef), B = A → cholU hB = cholU h := by
    rintro B hB rfl; rfl
  rw [hc _ h' e]

end Verif

namespace Verif

theorem inv_diagonal_real {n : ℕ} (d : Fin n → ℝ) (h : ∀ i, d i ≠ 0) :
    (Matrix.diagonal d)⁻¹ = Matrix.diagonal fun i => (d i)⁻¹ := by
  refine Matrix.inv_eq_right_inv ?_
  rw [Matrix.diagonal_mul_diagonal, ← Matrix.diagonal_one]
  congr 1
  funext i
  exact mul_inv_cancel₀ (h i)

end Verif
