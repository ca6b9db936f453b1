import Verif.Spec.Gaussian
import Verif.Lemmas.GaussOps

/-!
# Properties C12, C13: `Utils/linalg.py` and the inversion fallbacks
-/

namespace Verif

open Matrix Gaussian

/-! ### C12 -/

/-- **C12** `symmetrize` returns a symmetric matrix with the same quadratic form, is idempotent and fixes symmetric matrices. -/
theorem C12_symmetrize {n : ℕ} (A : Matrix (Fin n) (Fin n) ℝ) :
    ∃ S : Matrix (Fin n) (Fin n) ℝ, symmetrize (.m A) = .ok (.m S) ∧ Sᵀ = S ∧ symmetrize (.m S) = .ok (.m S) ∧
      (Aᵀ = A → S = A) ∧ ∀ x : Fin n → ℝ, x ⬝ᵥ S *ᵥ x = x ⬝ᵥ A *ᵥ x :=
  ⟨_, symmetrize_m A, half_add_transpose_symm A, symmetrize_symm (half_add_transpose_symm A), half_add_self,
    quad_symmetrize A⟩

/-- **C12** `validate_covariance` accepts a state iff some positive definite matrix has the lower triangle of its covariance, and
raises `LinAlgError` otherwise. -/
theorem C12_validate_iff (env : Env) {n : ℕ} (g : Gaussian) (C : Matrix (Fin n) (Fin n) ℝ)
    (hc : g.cov env = .ok (some (.m C))) :
    (validateCovariance env g = .ok () ↔ ∃ S : Matrix (Fin n) (Fin n) ℝ, S.PosDef ∧ ∀ i j, j ≤ i → S i j = C i j) ∧
    (validateCovariance env g = .ok () ∨ validateCovariance env g = .error .linAlg) := by
  have hv : validateCovariance env g = npCholesky (.m C) := by simp [validateCovariance, hc]
  rw [hv]
  refine ⟨?_, npCholesky_total _⟩
  rw [npCholesky_m]
  refine ⟨fun h => ⟨_, h, fun i j hij => by simp [lowerSym, hij]⟩, ?_⟩
  rintro ⟨S, hS, hl⟩
  have : lowerSym C = S := by
    ext i j
    unfold lowerSym
    split
    · next h => exact (hl i j h).symm
    · next h => rw [← hl j i (le_of_not_ge h)]; exact congrFun (congrFun (posDef_symm hS) i) j
  rw [this]; exact hS

/-- **C12** for a symmetric covariance this is just positive definiteness. -/
theorem C12_validate_symmetric (env : Env) {n : ℕ} (g : Gaussian) (C : Matrix (Fin n) (Fin n) ℝ)
    (hc : g.cov env = .ok (some (.m C))) (hs : Cᵀ = C) : validateCovariance env g = .ok () ↔ C.PosDef := by
  have hv : validateCovariance env g = npCholesky (.m C) := by simp [validateCovariance, hc]
  rw [hv, npCholesky_m, lowerSym_of_symm hs]

example : validateCovariance fussyEnv (ofMoment (.v ![0, 0]) (.m (Matrix.diagonal ![(2 : ℝ), 3]))) = .ok () :=
  (C12_validate_symmetric _ _ _ (cov_ofMoment _ _ _) (posDef_symm posDef_two)).2 posDef_two

/-- **C12** the check does not see the upper triangle: a badly asymmetric covariance is accepted. -/
theorem C12_validate_ignores_upper (env : Env) (x : ℝ) :
    validateCovariance env (ofMoment (.v ![0, 0]) (.m !![1, x; 0, (1 : ℝ)])) = .ok () := by
  rw [(C12_validate_iff env _ _ (cov_ofMoment _ _ _)).1]
  refine ⟨1, Matrix.PosDef.one, fun i j hij => ?_⟩
  fin_cases i <;> fin_cases j <;> simp_all

/-- **C12** a state without covariance is rejected with `LinAlgError`. -/
theorem C12_missing_covariance (env : Env) (g : Gaussian) (hc : g.cov env = .ok none) :
    validateCovariance env g = .error .linAlg := by
  simp [validateCovariance, hc]

example (env : Env) : validateCovariance env (Gaussian.init (some (.s 1)) none none none) = .error .linAlg :=
  C12_missing_covariance env _ rfl

/-! ### C13 -/

/-- **C13** A symmetric positive semidefinite but singular precision with trace at least `1e-10` is read with the exact inverse of
`P + 1e-10 I` as covariance, which is positive definite, provided scipy does not reject `P + 1e-10 I` as
ill-conditioned in *both* attempts. -/
theorem C13_singular_precision (env : Env) {n : ℕ} (P : Matrix (Fin n) (Fin n) ℝ) (h : Fin n → ℝ) (hP : P.PosSemidef)
    (hn : ¬ P.PosDef) (ht : 1 / 10 ^ 10 ≤ P.trace) (J : Matrix (Fin n) (Fin n) ℝ)
    (hJ : J = P + (1 / 10 ^ 10 : ℝ) • (1 : Matrix (Fin n) (Fin n) ℝ))
    (hi : env.illPos J = false ∨ env.illGen J = false) :
    HasMoments env (ofNatural (.m P) (.v h)) (J⁻¹ *ᵥ h) J⁻¹ ∧ J⁻¹.PosDef ∧ J * J⁻¹ = 1 := by
  have hj : jitMat P = J := by rw [hJ]; exact jitMat_of_symm (posSemidef_symm hP)
  have hpd : J.PosDef := hj ▸ jitMat_posDef hP
  have hu : IsUnit J.det := (isUnit_iff_isUnit_det _).1 hpd.isUnit
  have h1 : spSolvePos env (.m P) (Arr.eye n) = .error .linAlg :=
    spSolvePos_not (by rw [upperSym_of_symm (posSemidef_symm hP)]; exact hn)
  have h2 : jitteredSolve env (.m P) (Arr.eye n) = .ok (.m J⁻¹) := by
    simp only [jitteredSolve, jitter_m, ok_bind, hj]
    by_cases hip : env.illPos J = false
    · rw [spSolvePos_eye hpd hip]; rfl
    · rw [spSolvePos_ill hpd (by simpa using hip), tryBare_error, spSolveGen_eye hu.ne_zero (hi.resolve_left hip)]
  have h3 : naturalToMoment env (some (.m P)) (some (.v h)) = .ok (.v (J⁻¹ *ᵥ h), .m J⁻¹) := by
    simp only [naturalToMoment, need_some, ok_bind, Arr.shape0_m, Arr.trace_m, if_neg (not_lt.2 ht : ¬ P.trace < TRACE_EPS),
      h1, h2, tryBare_error, symmetrize_symm (posDef_symm hpd.inv), Arr.dot_mv, py_pure]
  refine ⟨⟨?_, ?_⟩, hpd.inv, mul_nonsing_inv _ hu⟩
  · rw [mean_ofNatural, Arr.atleast1d_v, h3]; rfl
  · rw [cov_ofNatural, Arr.atleast1d_v, h3]; rfl

theorem singularPrecision_psd : (Matrix.diagonal ![(1 : ℝ), 0]).PosSemidef :=
  Matrix.PosSemidef.diagonal fun i => by fin_cases i <;> simp

theorem singularPrecision_not_pd : ¬ (Matrix.diagonal ![(1 : ℝ), 0]).PosDef := fun h => by
  have := h.diag_pos (i := 1)
  simp at this

example : (Matrix.diagonal ![(1 : ℝ), 0] + (1 / 10 ^ 10 : ℝ) • (1 : Matrix (Fin 2) (Fin 2) ℝ))⁻¹.PosDef :=
  (C13_singular_precision calmEnv _ ![1, 2] singularPrecision_psd singularPrecision_not_pd
    (by simp [Matrix.trace, Fin.sum_univ_two]; norm_num) _ rfl (.inl rfl)).2.1

/-- **C13**, the proviso is needed: with a scipy that warns both times, reading `cov` of a semidefinite precision raises
`LinAlgWarning`, which is not a `LinAlgError`. -/
theorem C13_double_warning_escapes :
    (ofNatural (.m (Matrix.diagonal ![(1 : ℝ), 0])) (.v ![1, 2])).cov fussyEnv = .error .linAlgWarning := by
  have hs := posSemidef_symm singularPrecision_psd
  have hpd := jitMat_posDef singularPrecision_psd
  have h1 : spSolvePos fussyEnv (.m (Matrix.diagonal ![(1 : ℝ), 0])) (Arr.eye 2) = .error .linAlg :=
    spSolvePos_not (by rw [upperSym_of_symm hs]; exact singularPrecision_not_pd)
  have h2 : jitteredSolve fussyEnv (.m (Matrix.diagonal ![(1 : ℝ), 0])) (Arr.eye 2) = .error .linAlgWarning := by
    simp only [jitteredSolve, jitter_m, ok_bind]
    rw [spSolvePos_ill hpd rfl, tryBare_error]
    have hu : (jitMat (Matrix.diagonal ![(1 : ℝ), 0])).det ≠ 0 := hpd.det_pos.ne'
    simp only [spSolveGen, Arr.eye, Arr.atleast2d_m, dif_pos, fussyEnv]
    rw [if_neg (by simpa using hu)]; rfl
  have ht : ¬ (Matrix.diagonal ![(1 : ℝ), 0]).trace < TRACE_EPS := by
    simp [Matrix.trace, Fin.sum_univ_two, TRACE_EPS]; norm_num
  have h3 : naturalToMoment fussyEnv (some (.m (Matrix.diagonal ![(1 : ℝ), 0]))) (some (.v ![1, 2])) = .error .linAlgWarning := by
    simp only [naturalToMoment, need_some, ok_bind, Arr.shape0_m, Arr.trace_m, if_neg ht, h1, h2, tryBare_error, error_bind]
  rw [cov_ofNatural, Arr.atleast1d_v, h3]; rfl

end Verif
