import Verif.Model.TaylorLikelihood
import Verif.Props.Likelihood
import Verif.Props.Transforms
import Mathlib.LinearAlgebra.Matrix.Rank

/-!
# The likelihood methods of `TaylorTransform` (C99)
-/

namespace Verif

open Matrix

/-- A semidefinite covariance that is not definite counts as singular. -/
theorem mvnNegLog_singular {n : ℕ} {C : Matrix (Fin n) (Fin n) ℝ} (hC : C.PosSemidef) (hn : ¬ C.PosDef) (x μ : Fin n → ℝ) :
    mvnNegLog false x μ C = .error .linAlg := by
  have hl := lowerSym_of_symm (posSemidef_symm hC)
  have hC' : (lowerSym C).PosSemidef := by rwa [hl]
  have hn' : ¬ (lowerSym C).PosDef := by rwa [hl]
  simp only [mvnNegLog]
  rw [if_neg, if_neg]
  · rfl
  · rintro ⟨i, hi⟩
    have h1 := hi i
    have h2 := hC'.eigenvalues_nonneg i
    rw [abs_of_nonneg h2] at h1
    norm_num at h1
    linarith
  · intro h
    apply hn'
    rw [(lowerSym_hermitian C).posDef_iff_eigenvalues_pos]
    intro i
    refine lt_of_le_of_lt ?_ (h i i)
    positivity

section
variable {env : Env} {jac : Jac} {n k : ℕ} {g : Gaussian} {μ : Fin n → ℝ} {P : Matrix (Fin n) (Fin n) ℝ} {func : Func}
  {F : (Fin n → ℝ) → Fin k → ℝ} {F' : (Fin n → ℝ) →L[ℝ] (Fin k → ℝ)} {data : Arr} {y : Fin k → ℝ}

theorem taylorDataLikelihood_eq (hjac : CorrectJac jac) (hg : HasMoments env g μ P) (hf : VecFunc func F) (hF : HasFDerivAt F F' μ)
    (hy : IsPoint data y) :
    taylorDataLikelihood env jac func g data =
      (mvnNegLog false y (F μ) (jacMat F' * P * (jacMat F')ᵀ)).map fun l => -l := by
  obtain ⟨t, ht, hs, he⟩ := (hjac func F F' μ hF).1 hf
  have hJ : t.toArr = .ok (.m (jacMat F')) := by
    have h := toArr_kn hs
    rw [if_neg (by rw [hs]; simp)] at h
    rw [h]
    congr 2
    ext i j
    exact he i j
  have h1 : mvnCov k (.m (jacMat F' * P * (jacMat F')ᵀ)) = .ok (jacMat F' * P * (jacMat F')ᵀ) := dif_pos ⟨rfl, rfl⟩
  have h2 : mvnPoint k data = .ok y := by
    rcases hy with rfl | rfl
    · exact dif_pos rfl
    · exact dif_pos ⟨Nat.one_pos, rfl, rfl⟩
  unfold taylorDataLikelihood
  rw [hg.meanA, ok_bind, hf μ, ok_bind, ht, ok_bind, hJ, ok_bind, hg.covA, ok_bind]
  simp only [Arr.matmul_mm, Arr.T_m, ok_bind, mvnMean, h1, h2]
  cases mvnNegLog false y (F μ) (jacMat F' * P * (jacMat F')ᵀ) <;> rfl

/-- **C99.** `_data_likelihood` is the logarithm of the normal density of the data with the mean and covariance that the Taylor
transform predicts for the function of the state alone: no measurement noise enters.  It is minus the `nll` of that Gaussian. -/
theorem C99_value (hjac : CorrectJac jac) (hg : HasMoments env g μ P) (hf : VecFunc func F) (hF : HasFDerivAt F F' μ)
    (hy : IsPoint data y) (hS : (jacMat F' * P * (jacMat F')ᵀ).PosDef) (hs : Spread (jacMat F' * P * (jacMat F')ᵀ)) :
    taylorDataLikelihood env jac func g data = .ok (-((k * Real.log (2 * Real.pi) + Real.log (jacMat F' * P * (jacMat F')ᵀ).det +
      (y - F μ) ⬝ᵥ (jacMat F' * P * (jacMat F')ᵀ)⁻¹ *ᵥ (y - F μ)) / 2)) ∧
    ∃ l, (Gaussian.ofMoment (.v (F μ)) (.m (jacMat F' * P * (jacMat F')ᵀ))).nll env data = .ok l ∧
      taylorDataLikelihood env jac func g data = .ok (-l) := by
  have h : taylorDataLikelihood env jac func g data = .ok (-((k * Real.log (2 * Real.pi) + Real.log (jacMat F' * P * (jacMat F')ᵀ).det +
      (y - F μ) ⬝ᵥ (jacMat F' * P * (jacMat F')ᵀ)⁻¹ *ᵥ (y - F μ)) / 2)) := by
    rw [taylorDataLikelihood_eq hjac hg hf hF hy, mvnNegLog_posDef hS hs]
    rfl
  exact ⟨h, _, C64_formula (g := .ofMoment (.v (F μ)) (.m (jacMat F' * P * (jacMat F')ᵀ))) ⟨rfl, rfl⟩ hS hs hy, h⟩

/-- **C99.** If the predicted covariance is singular, `LinAlgError`. -/
theorem C99_singular (hjac : CorrectJac jac) (hg : HasMoments env g μ P) (hP : P.PosSemidef) (hf : VecFunc func F)
    (hF : HasFDerivAt F F' μ) (hy : IsPoint data y) (hS : ¬ (jacMat F' * P * (jacMat F')ᵀ).PosDef) :
    taylorDataLikelihood env jac func g data = .error .linAlg := by
  have h : (jacMat F' * P * (jacMat F')ᵀ).PosSemidef := by
    have := hP.mul_mul_conjTranspose_same (jacMat F')
    rwa [conjTranspose_eq_transpose_of_trivial] at this
  rw [taylorDataLikelihood_eq hjac hg hf hF hy, mvnNegLog_singular h hS]
  rfl

/-- **C99.** This is always so if there are more measurements than states. -/
theorem C99_more_outputs (hkn : n < k) (hjac : CorrectJac jac) (hg : HasMoments env g μ P) (hP : P.PosSemidef) (hf : VecFunc func F)
    (hF : HasFDerivAt F F' μ) (hy : IsPoint data y) : taylorDataLikelihood env jac func g data = .error .linAlg := by
  refine C99_singular hjac hg hP hf hF hy fun h => ?_
  have h1 : (jacMat F' * P * (jacMat F')ᵀ).rank ≤ n := by
    refine (rank_mul_le_left _ _).trans ((rank_mul_le_left _ _).trans ?_)
    simpa using rank_le_width (jacMat F')
  rw [rank_of_isUnit _ h.isUnit, Fintype.card_fin] at h1
  omega

/-- **C99.** `project` never returns: `TypeError` wherever `_data_likelihood` has a value, and its exception otherwise. -/
theorem C99_project (env : Env) (jac : Jac) (func : Func) (g : Gaussian) (data : Arr) :
    (∀ l, taylorDataLikelihood env jac func g data = .ok l → taylorProject env jac func g data = .error .type) ∧
    (∀ e, taylorDataLikelihood env jac func g data = .error e → taylorProject env jac func g data = .error e) := by
  refine ⟨fun l h => ?_, fun e h => ?_⟩ <;> rw [taylorProject, h] <;> rfl

end

/-- A concrete case: `h(x) = 3 x` at a state of variance `4` gives variance `36`. -/
example (env : Env) (jac : Jac) (hjac : CorrectJac jac) (func : Func) (hf : VecFunc func fun x : Fin 1 → ℝ => (3 : ℝ) • x) :
    ∃ l, taylorDataLikelihood env jac func (sG 2 4) (.v (v1 5)) = .ok l := by
  have hF : HasFDerivAt (fun x : Fin 1 → ℝ => (3 : ℝ) • x) ((3 : ℝ) • ContinuousLinearMap.id ℝ (Fin 1 → ℝ)) (v1 2) :=
    (hasFDerivAt_id (v1 2)).const_smul (3 : ℝ)
  have hJ : jacMat ((3 : ℝ) • ContinuousLinearMap.id ℝ (Fin 1 → ℝ)) * m1 4 * (jacMat ((3 : ℝ) • ContinuousLinearMap.id ℝ (Fin 1 → ℝ)))ᵀ =
      m1 36 := by
    have : jacMat ((3 : ℝ) • ContinuousLinearMap.id ℝ (Fin 1 → ℝ)) = m1 3 := by
      ext i j
      fin_cases i; fin_cases j
      simp [jacMat, m1]
    rw [this]
    ext i j
    fin_cases i; fin_cases j
    simp [Matrix.mul_apply, m1]
    norm_num
  refine ⟨_, (C99_value hjac (sG_moments env 2 4) hf hF (.inl rfl) ?_ ?_).1⟩
  · rw [hJ, m1_posDef]; norm_num
  · rw [hJ]
    intro u w hu hw
    have e : ∀ u : Fin 1 → ℝ, u ⬝ᵥ u = 1 → u ⬝ᵥ m1 36 *ᵥ u = 36 := fun u hu => by
      simp only [dotProduct, Fin.sum_univ_one, mulVec, m1_apply] at hu ⊢
      linear_combination 36 * hu
    rw [e u hu, e w hw]
    norm_num

end Verif
