import Verif.Model.Gaussian
import Verif.Lemmas.LinAlg

/-! Lemmas about `Gaussian` objects with well-shaped parameters. -/

namespace Verif

open Matrix

@[simp] theorem need_some (e : Err) (a : Arr) : need e (some a) = .ok a := rfl
@[simp] theorem need_none (e : Err) : need e none = .error e := rfl

theorem TRACE_EPS_pos : 0 < TRACE_EPS := by unfold TRACE_EPS; positivity
theorem LARGE_NUM_pos : 0 < LARGE_NUM := by unfold LARGE_NUM; positivity

/-- The result of inverting a square matrix with the bare-`except` fallback. -/
theorem invert_cases (env : Env) {n} (A : Matrix (Fin n) (Fin n) ℝ) :
    (∃ C : Matrix (Fin n) (Fin n) ℝ,
      tryBare (spSolvePos env (.m A) (Arr.eye n)) (jitteredSolve env (.m A) (Arr.eye n)) = .ok (.m C)) ∨
    (∃ e, (e = .linAlg ∨ e = .linAlgWarning) ∧
      tryBare (spSolvePos env (.m A) (Arr.eye n)) (jitteredSolve env (.m A) (Arr.eye n)) = .error e) := by
  rcases spSolvePos_eye_cases env A with h | ⟨e, h⟩
  · exact .inl ⟨_, by rw [h]; rfl⟩
  · rw [h, tryBare_error]
    simp only [jitteredSolve, jitter_m, ok_bind]
    rcases spSolvePos_eye_cases env (jitMat A) with h | ⟨e, h⟩
    · exact .inl ⟨_, by rw [h]; rfl⟩
    · rw [h, tryBare_error]
      by_cases hd : (jitMat A).det = 0
      · exact .inr ⟨.linAlg, .inl rfl, by simp [spSolveGen, Arr.eye, hd]⟩
      · by_cases hi : env.illGen (jitMat A) = true
        · exact .inr ⟨.linAlgWarning, .inr rfl, by simp [spSolveGen, Arr.eye, hd, hi]⟩
        · exact .inl ⟨(jitMat A)⁻¹, by simp [spSolveGen, Arr.eye, hd, hi]⟩

theorem naturalToMoment_good {env : Env} {n} {P : Matrix (Fin n) (Fin n) ℝ} (h : Fin n → ℝ)
    (hP : P.PosDef) (ht : TRACE_EPS ≤ P.trace) (hi : env.illPos P = false) :
    naturalToMoment env (some (.m P)) (some (.v h)) = .ok (.v (P⁻¹ *ᵥ h), .m P⁻¹) := by
  simp only [naturalToMoment, need_some, ok_bind, Arr.shape0_m, Arr.trace_m, if_neg (not_lt.2 ht),
    spSolvePos_eye hP hi, tryBare_ok]
  rw [symmetrize_symm (posDef_symm hP.inv)]
  simp

theorem naturalToMoment_broad {env : Env} {n} {P : Matrix (Fin n) (Fin n) ℝ} (h : Option Arr)
    (ht : P.trace < TRACE_EPS) :
    naturalToMoment env (some (.m P)) h =
      .ok (.v (0 : Fin n → ℝ), .m (LARGE_NUM • (1 : Matrix (Fin n) (Fin n) ℝ))) := by
  simp only [naturalToMoment, need_some, ok_bind, Arr.shape0_m, Arr.trace_m, if_pos ht, Arr.eye, Arr.smul_m]
  rw [symmetrize_symm (by rw [transpose_smul, transpose_one])]
  rfl

/-- Reading the moments of natural parameters of matching shape: a mean vector and a symmetric covariance matrix, or one
of the two linear algebra exceptions. -/
theorem naturalToMoment_cases (env : Env) {n} (P : Matrix (Fin n) (Fin n) ℝ) (h : Fin n → ℝ) :
    (∃ (μ : Fin n → ℝ) (C : Matrix (Fin n) (Fin n) ℝ), Cᵀ = C ∧
      naturalToMoment env (some (.m P)) (some (.v h)) = .ok (.v μ, .m C)) ∨
    (∃ e, (e = .linAlg ∨ e = .linAlgWarning) ∧
      naturalToMoment env (some (.m P)) (some (.v h)) = .error e) := by
  by_cases ht : P.trace < TRACE_EPS
  · exact .inl ⟨_, _, by rw [transpose_smul, transpose_one], naturalToMoment_broad _ ht⟩
  · simp only [naturalToMoment, need_some, ok_bind, Arr.shape0_m, Arr.trace_m, if_neg ht]
    rcases invert_cases env P with ⟨C, hC⟩ | ⟨e, he, hC⟩
    · exact .inl ⟨((2 : ℝ)⁻¹ • (C + Cᵀ)) *ᵥ h, _, half_add_transpose_symm C, by rw [hC]; simp⟩
    · exact .inr ⟨e, he, by rw [hC]; rfl⟩

theorem momentToNatural_good {env : Env} {n} {C : Matrix (Fin n) (Fin n) ℝ} (μ : Fin n → ℝ)
    (hC : C.PosDef) (hi : env.illPos C = false) :
    momentToNatural env (some (.v μ)) (some (.m C)) = .ok (.m C⁻¹, .v (C⁻¹ *ᵥ μ)) := by
  simp only [momentToNatural, need_some, ok_bind, Arr.shape0_m, spSolvePos_eye hC hi, tryBare_ok]
  rw [symmetrize_symm (posDef_symm hC.inv)]
  simp

theorem momentToNatural_cases (env : Env) {n} (μ : Fin n → ℝ) (C : Matrix (Fin n) (Fin n) ℝ) :
    (∃ P : Matrix (Fin n) (Fin n) ℝ, Pᵀ = P ∧
      momentToNatural env (some (.v μ)) (some (.m C)) = .ok (.m P, .v (P *ᵥ μ))) ∨
    (∃ e, (e = .linAlg ∨ e = .linAlgWarning) ∧
      momentToNatural env (some (.v μ)) (some (.m C)) = .error e) := by
  simp only [momentToNatural, need_some, ok_bind, Arr.shape0_m]
  rcases invert_cases env C with ⟨P, hP⟩ | ⟨e, he, hP⟩
  · exact .inl ⟨_, half_add_transpose_symm P, by rw [hP]; simp⟩
  · exact .inr ⟨e, he, by rw [hP]; rfl⟩

namespace Gaussian

variable (env : Env)

@[simp] theorem precision_ofNatural (P : Arr) (h : Arr) : (ofNatural P h).precision env = .ok (some P) := by
  simp [precision, getPrecision, ofNatural, init]
@[simp] theorem shift_ofNatural (P : Arr) (h : Arr) : (ofNatural P h).shift env = .ok (some h.atleast1d) := by
  simp [shift, getShift, ofNatural, init]
@[simp] theorem mean_ofMoment (a c : Arr) : (ofMoment a c).mean env = .ok (some a.atleast1d) := by
  simp [mean, getMean, ofMoment, init]
@[simp] theorem cov_ofMoment (a c : Arr) : (ofMoment a c).cov env = .ok (some c) := by
  simp [cov, getCov, ofMoment, init]

@[simp] theorem precisionA_ofNatural (P : Arr) (h : Arr) : (ofNatural P h).precisionA env = .ok P := by
  simp [precisionA]
@[simp] theorem shiftA_ofNatural (P : Arr) (h : Arr) : (ofNatural P h).shiftA env = .ok h.atleast1d := by
  simp [shiftA]
@[simp] theorem meanA_ofMoment (a c : Arr) : (ofMoment a c).meanA env = .ok a.atleast1d := by
  simp [meanA]
@[simp] theorem covA_ofMoment (a c : Arr) : (ofMoment a c).covA env = .ok c := by
  simp [covA]

theorem mean_ofNatural (P h : Arr) :
    (ofNatural P h).mean env = (naturalToMoment env (some P) (some h.atleast1d)).map fun r => some r.1 := by
  simp only [mean, getMean, ofNatural, init]
  rw [if_pos (by simp)]
  cases naturalToMoment env (some P) (some h.atleast1d) <;> rfl

theorem cov_ofNatural (P h : Arr) :
    (ofNatural P h).cov env = (naturalToMoment env (some P) (some h.atleast1d)).map fun r => some r.2 := by
  simp only [cov, getCov, ofNatural, init]
  rw [if_pos (by simp)]
  cases naturalToMoment env (some P) (some h.atleast1d) <;> rfl

theorem precision_ofMoment (a c : Arr) :
    (ofMoment a c).precision env = (momentToNatural env (some a.atleast1d) (some c)).map fun r => some r.1 := by
  simp only [precision, getPrecision, ofMoment, init]
  rw [if_pos (by simp)]
  cases momentToNatural env (some a.atleast1d) (some c) <;> rfl

theorem shift_ofMoment (a c : Arr) :
    (ofMoment a c).shift env = (momentToNatural env (some a.atleast1d) (some c)).map fun r => some r.2 := by
  simp only [shift, getShift, ofMoment, init]
  rw [if_pos (by simp)]
  cases momentToNatural env (some a.atleast1d) (some c) <;> rfl

variable {env}

theorem natural_of_moment {n} {C : Matrix (Fin n) (Fin n) ℝ} (μ : Fin n → ℝ) (hC : C.PosDef)
    (hi : env.illPos C = false) :
    (ofMoment (.v μ) (.m C)).precision env = .ok (some (.m C⁻¹)) ∧
    (ofMoment (.v μ) (.m C)).shift env = .ok (some (.v (C⁻¹ *ᵥ μ))) := by
  rw [precision_ofMoment, shift_ofMoment, Arr.atleast1d_v, momentToNatural_good μ hC hi]
  exact ⟨rfl, rfl⟩

theorem moment_of_natural {n} {P : Matrix (Fin n) (Fin n) ℝ} (h : Fin n → ℝ) (hP : P.PosDef)
    (ht : TRACE_EPS ≤ P.trace) (hi : env.illPos P = false) :
    (ofNatural (.m P) (.v h)).mean env = .ok (some (.v (P⁻¹ *ᵥ h))) ∧
    (ofNatural (.m P) (.v h)).cov env = .ok (some (.m P⁻¹)) := by
  rw [mean_ofNatural, cov_ofNatural, Arr.atleast1d_v, naturalToMoment_good h hP ht hi]
  exact ⟨rfl, rfl⟩

theorem moment_of_natural_broad {n} {P : Matrix (Fin n) (Fin n) ℝ} (h : Arr)
    (ht : P.trace < TRACE_EPS) :
    (ofNatural (.m P) h).mean env = .ok (some (.v (0 : Fin n → ℝ))) ∧
    (ofNatural (.m P) h).cov env = .ok (some (.m (LARGE_NUM • (1 : Matrix (Fin n) (Fin n) ℝ)))) := by
  rw [mean_ofNatural, cov_ofNatural, naturalToMoment_broad _ ht]
  exact ⟨rfl, rfl⟩

end Gaussian

end Verif
