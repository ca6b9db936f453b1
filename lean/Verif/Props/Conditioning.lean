import Verif.Props.Gaussian
import Verif.Props.LinAlg

/-!
# What is read from a semidefinite matrix, whatever scipy thinks of its conditioning (C01, C13, continued)
-/

namespace Verif

open Matrix Gaussian

variable {n : ℕ}

/-- Both conversions invert this way: the matrix itself if it is definite and scipy accepts it, else the jittered matrix. -/
theorem invert_psd (env : Env) {P : Matrix (Fin n) (Fin n) ℝ} (hP : P.PosSemidef) :
    (P.PosDef ∧ env.illPos P = false →
      tryBare (spSolvePos env (.m P) (Arr.eye n)) (jitteredSolve env (.m P) (Arr.eye n)) = .ok (.m P⁻¹)) ∧
    (¬ (P.PosDef ∧ env.illPos P = false) →
      (env.illPos (jitMat P) = false ∨ env.illGen (jitMat P) = false →
        tryBare (spSolvePos env (.m P) (Arr.eye n)) (jitteredSolve env (.m P) (Arr.eye n)) = .ok (.m (jitMat P)⁻¹)) ∧
      (env.illPos (jitMat P) = true → env.illGen (jitMat P) = true →
        tryBare (spSolvePos env (.m P) (Arr.eye n)) (jitteredSolve env (.m P) (Arr.eye n)) = .error .linAlgWarning)) := by
  have hpd : (jitMat P).PosDef := jitMat_posDef hP
  have hu : IsUnit (jitMat P).det := (isUnit_iff_isUnit_det _).1 hpd.isUnit
  refine ⟨fun h => by rw [spSolvePos_eye h.1 h.2, tryBare_ok], fun h => ?_⟩
  have hfail : ∃ e, spSolvePos env (.m P) (Arr.eye n) = .error e := by
    by_cases hd : P.PosDef
    · refine ⟨_, spSolvePos_ill hd ?_⟩
      by_contra hc
      exact h ⟨hd, by simpa using hc⟩
    · exact ⟨_, spSolvePos_not (by rw [upperSym_of_symm (posSemidef_symm hP)]; exact hd)⟩
  obtain ⟨e, he⟩ := hfail
  rw [he, tryBare_error]
  simp only [jitteredSolve, jitter_m, ok_bind]
  refine ⟨fun hi => ?_, fun hip hig => ?_⟩
  · by_cases hip : env.illPos (jitMat P) = false
    · rw [spSolvePos_eye hpd hip]; rfl
    · rw [spSolvePos_ill hpd (by simpa using hip), tryBare_error, spSolveGen_eye hu.ne_zero (hi.resolve_left hip)]
  · rw [spSolvePos_ill hpd hip, tryBare_error]
    simp only [spSolveGen, Arr.eye, Arr.atleast2d_m, dif_pos]
    rw [if_neg (by simpa using hu.ne_zero), if_pos (by simpa using hig)]

/-- **C13**, completely: what is read from a state built from a semidefinite precision of trace at least `1e-10`.  If the precision is
definite and scipy accepts it, its inverse; else, with `J = precision + 1e-10 I`, the inverse of `J` unless scipy warns about `J` in both attempts;
in that last case reading the mean or the covariance raises `LinAlgWarning`. -/
theorem C13_every_case (env : Env) (P J : Matrix (Fin n) (Fin n) ℝ) (h : Fin n → ℝ) (hP : P.PosSemidef)
    (ht : 1 / 10 ^ 10 ≤ P.trace) (hJ : J = P + (1 / 10 ^ 10 : ℝ) • (1 : Matrix (Fin n) (Fin n) ℝ)) :
    (P.PosDef ∧ env.illPos P = false → HasMoments env (ofNatural (.m P) (.v h)) (P⁻¹ *ᵥ h) P⁻¹) ∧
    (¬ (P.PosDef ∧ env.illPos P = false) →
      (env.illPos J = false ∨ env.illGen J = false → HasMoments env (ofNatural (.m P) (.v h)) (J⁻¹ *ᵥ h) J⁻¹) ∧
      (env.illPos J = true → env.illGen J = true →
        (ofNatural (.m P) (.v h)).mean env = .error .linAlgWarning ∧ (ofNatural (.m P) (.v h)).cov env = .error .linAlgWarning)) := by
  have hj : jitMat P = J := by rw [hJ]; exact jitMat_of_symm (posSemidef_symm hP)
  have hpd : J.PosDef := hj ▸ jitMat_posDef hP
  have hinv := invert_psd env hP
  rw [hj] at hinv
  have hread : ∀ A : Matrix (Fin n) (Fin n) ℝ, A.PosDef →
      tryBare (spSolvePos env (.m P) (Arr.eye n)) (jitteredSolve env (.m P) (Arr.eye n)) = .ok (.m A⁻¹) →
      HasMoments env (ofNatural (.m P) (.v h)) (A⁻¹ *ᵥ h) A⁻¹ := by
    intro A hA hsol
    have h3 : naturalToMoment env (some (.m P)) (some (.v h)) = .ok (.v (A⁻¹ *ᵥ h), .m A⁻¹) := by
      simp only [naturalToMoment, need_some, ok_bind, Arr.shape0_m, Arr.trace_m, if_neg (not_lt.2 ht : ¬ P.trace < TRACE_EPS),
        hsol, symmetrize_symm (posDef_symm hA.inv), Arr.dot_mv, py_pure]
    exact ⟨by rw [mean_ofNatural, Arr.atleast1d_v, h3]; rfl, by rw [cov_ofNatural, Arr.atleast1d_v, h3]; rfl⟩
  refine ⟨fun hg => hread _ hg.1 (hinv.1 hg), fun hb => ⟨fun hi => hread _ hpd ((hinv.2 hb).1 hi), fun h1 h2 => ?_⟩⟩
  have h3 : naturalToMoment env (some (.m P)) (some (.v h)) = .error .linAlgWarning := by
    simp only [naturalToMoment, need_some, ok_bind, Arr.shape0_m, Arr.trace_m, if_neg (not_lt.2 ht : ¬ P.trace < TRACE_EPS),
      (hinv.2 hb).2 h1 h2, error_bind]
  exact ⟨by rw [mean_ofNatural, Arr.atleast1d_v, h3]; rfl, by rw [cov_ofNatural, Arr.atleast1d_v, h3]; rfl⟩

example (h : Fin 2 → ℝ) : (ofNatural (.m (Matrix.diagonal ![(1 : ℝ), 0])) (.v h)).mean fussyEnv = .error .linAlgWarning :=
  (((C13_every_case fussyEnv _ _ h singularPrecision_psd (by simp [Matrix.trace, Fin.sum_univ_two]; norm_num) rfl).2
    (fun hc => singularPrecision_not_pd hc.1)).2 rfl rfl).1

/-- **C01**, completely: which natural parameters are read from a state built from moments with a semidefinite covariance.  There is no
test of the size: a definite covariance scipy accepts is inverted; every other one, the zero matrix included, is inverted after adding `1e-10 I`; if scipy
warns about that one twice, `LinAlgWarning` is raised. -/
theorem C01_every_case (env : Env) (C J : Matrix (Fin n) (Fin n) ℝ) (μ : Fin n → ℝ) (hC : C.PosSemidef)
    (hJ : J = C + (1 / 10 ^ 10 : ℝ) • (1 : Matrix (Fin n) (Fin n) ℝ)) :
    (C.PosDef ∧ env.illPos C = false → HasNatural env (ofMoment (.v μ) (.m C)) C⁻¹ (C⁻¹ *ᵥ μ)) ∧
    (¬ (C.PosDef ∧ env.illPos C = false) →
      (env.illPos J = false ∨ env.illGen J = false → HasNatural env (ofMoment (.v μ) (.m C)) J⁻¹ (J⁻¹ *ᵥ μ)) ∧
      (env.illPos J = true → env.illGen J = true →
        (ofMoment (.v μ) (.m C)).precision env = .error .linAlgWarning ∧ (ofMoment (.v μ) (.m C)).shift env = .error .linAlgWarning)) := by
  have hj : jitMat C = J := by rw [hJ]; exact jitMat_of_symm (posSemidef_symm hC)
  have hpd : J.PosDef := hj ▸ jitMat_posDef hC
  have hinv := invert_psd env hC
  rw [hj] at hinv
  have hread : ∀ A : Matrix (Fin n) (Fin n) ℝ, A.PosDef →
      tryBare (spSolvePos env (.m C) (Arr.eye n)) (jitteredSolve env (.m C) (Arr.eye n)) = .ok (.m A⁻¹) →
      HasNatural env (ofMoment (.v μ) (.m C)) A⁻¹ (A⁻¹ *ᵥ μ) := by
    intro A hA hsol
    have h3 : momentToNatural env (some (.v μ)) (some (.m C)) = .ok (.m A⁻¹, .v (A⁻¹ *ᵥ μ)) := by
      simp only [momentToNatural, need_some, ok_bind, Arr.shape0_m, hsol, symmetrize_symm (posDef_symm hA.inv)]
      simp
    exact ⟨by rw [precision_ofMoment, Arr.atleast1d_v, h3]; rfl, by rw [shift_ofMoment, Arr.atleast1d_v, h3]; rfl⟩
  refine ⟨fun hg => hread _ hg.1 (hinv.1 hg), fun hb => ⟨fun hi => hread _ hpd ((hinv.2 hb).1 hi), fun h1 h2 => ?_⟩⟩
  have h3 : momentToNatural env (some (.v μ)) (some (.m C)) = .error .linAlgWarning := by
    simp only [momentToNatural, need_some, ok_bind, Arr.shape0_m, (hinv.2 hb).2 h1 h2, error_bind]
  exact ⟨by rw [precision_ofMoment, Arr.atleast1d_v, h3]; rfl, by rw [shift_ofMoment, Arr.atleast1d_v, h3]; rfl⟩

/-- A state with covariance zero (a known initial state, say) has precision `1e10 I`. -/
example : HasNatural calmEnv (ofMoment (.v ![1, 2]) (.m (0 : Matrix (Fin 2) (Fin 2) ℝ)))
    (0 + (1 / 10 ^ 10 : ℝ) • (1 : Matrix (Fin 2) (Fin 2) ℝ))⁻¹ ((0 + (1 / 10 ^ 10 : ℝ) • (1 : Matrix (Fin 2) (Fin 2) ℝ))⁻¹ *ᵥ ![1, 2]) :=
  ((C01_every_case calmEnv 0 _ ![1, 2] Matrix.PosSemidef.zero rfl).2 (fun h => by simpa using h.1.diag_pos (i := 0))).1 (.inl rfl)

end Verif
