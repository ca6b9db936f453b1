import Verif.Props.Gaussian

/-!
# Assigning parameters of a state (C11, continued)
-/

namespace Verif

open Matrix Gaussian

variable {env : Env} {n : ℕ}

/-- **C11.** The same for states built from natural parameters: after the mean or the covariance was read once, assigning precision and
shift leaves mean and covariance as they were. -/
theorem C11_natural_stale {P : Matrix (Fin n) (Fin n) ℝ} (h : Fin n → ℝ) (hP : P.PosDef) (ht : TRACE_EPS ≤ P.trace)
    (hi : env.illPos P = false) (P' : Matrix (Fin n) (Fin n) ℝ) (h' : Fin n → ℝ) :
    let g := ofNatural (.m P) (.v h)
    let g' := ((getMean env g).2.setPrecision (some (.m P'))).setShift (some (.v h'))
    let g'' := ((getCov env g).2.setPrecision (some (.m P'))).setShift (some (.v h'))
    HasNatural env g' P' h' ∧ HasMoments env g' (P⁻¹ *ᵥ h) P⁻¹ ∧ HasNatural env g'' P' h' ∧ HasMoments env g'' (P⁻¹ *ᵥ h) P⁻¹ := by
  have hm := naturalToMoment_good (env := env) h hP ht hi
  refine ⟨⟨?_, ?_⟩, ⟨?_, ?_⟩, ⟨?_, ?_⟩, ⟨?_, ?_⟩⟩ <;>
    simp [ofNatural, init, getPrecision, getShift, hm, setPrecision, setShift, Gaussian.mean, Gaussian.cov, getMean, getCov,
      Gaussian.precision, Gaussian.shift]

/-- **C11.** If neither mean nor covariance was read before, the object reads like one built from the new values. -/
theorem C11_natural_fresh (p h p' h' : Arr) :
    ((ofNatural p h).setPrecision (some p')).setShift (some h'.atleast1d) = ofNatural p' h' := by
  simp [ofNatural, init, setPrecision, setShift]

/-- **C11.** Assigning one derived parameter before the other was read is undone by reading the other: the precision assigned to a state
built from moments is read back only until `shift` is read, and vice versa. -/
theorem C11_assignment_lost (μ : Fin n → ℝ) {C : Matrix (Fin n) (Fin n) ℝ} (hC : C.PosDef) (hi : env.illPos C = false) (a : Arr) :
    let g := ofMoment (.v μ) (.m C)
    (g.setPrecision (some a)).precision env = .ok (some a) ∧
    (getShift env (g.setPrecision (some a))).2.precision env = .ok (some (.m C⁻¹)) ∧
    (g.setShift (some a)).shift env = .ok (some a) ∧
    (getPrecision env (g.setShift (some a))).2.shift env = .ok (some (.v (C⁻¹ *ᵥ μ))) := by
  have hm := momentToNatural_good (env := env) μ hC hi
  refine ⟨?_, ?_, ?_, ?_⟩ <;>
    simp [ofMoment, init, getPrecision, getShift, hm, setPrecision, setShift, Gaussian.precision, Gaussian.shift]

/-- **C11.** The same for the mean and covariance assigned to a state built from natural parameters. -/
theorem C11_natural_assignment_lost {P : Matrix (Fin n) (Fin n) ℝ} (h : Fin n → ℝ) (hP : P.PosDef) (ht : TRACE_EPS ≤ P.trace)
    (hi : env.illPos P = false) (a : Arr) :
    let g := ofNatural (.m P) (.v h)
    (g.setCov (some a)).cov env = .ok (some a) ∧ (getMean env (g.setCov (some a))).2.cov env = .ok (some (.m P⁻¹)) ∧
    (g.setMean (some a)).mean env = .ok (some a) ∧ (getCov env (g.setMean (some a))).2.mean env = .ok (some (.v (P⁻¹ *ᵥ h))) := by
  have hm := naturalToMoment_good (env := env) h hP ht hi
  refine ⟨?_, ?_, ?_, ?_⟩ <;>
    simp [ofNatural, init, getMean, getCov, hm, setMean, setCov, Gaussian.mean, Gaussian.cov]

/-- **C11.** `dim` and `chol_cov` are remembered from the first successful read: no assignment changes them, whatever is assigned. -/
theorem C11_dim_chol_stale (g : Gaussian) (m c p s : Option Arr) :
    (∀ d, (getDim env g).1 = .ok d →
      (((((getDim env g).2.setMean m).setCov c).setPrecision p).setShift s).dim env = .ok d) ∧
    ∀ L, (getChol env g).1 = .ok L →
      (getChol env (((((getChol env g).2.setMean m).setCov c).setPrecision p).setShift s)).1 = .ok L := by
  constructor
  · intro d hd
    have hk : (getDim env g).2.dim_ = some d := by
      unfold getDim at hd ⊢
      cases hg : g.dim_ with
      | some x => simp only [hg] at hd ⊢; rw [Except.ok.inj hd]
      | none =>
        simp only [hg] at hd ⊢
        generalize (if g.mode = .natural then getShift env g else getMean env g) = rg at hd ⊢
        obtain ⟨r, g'⟩ := rg
        cases r with
        | error e => simp at hd
        | ok a =>
          simp only at hd ⊢
          cases hs : npShape0 a with
          | error e => simp [hs] at hd
          | ok d' => simp only [hs, Except.ok.injEq] at hd ⊢; rw [hd]
    generalize (getDim env g).2 = g' at hk
    simp only [Gaussian.dim, getDim, setMean, setCov, setPrecision, setShift, hk]
  · intro L hL
    have hk : (getChol env g).2.chol_ = some L := by
      unfold getChol at hL ⊢
      cases hg : g.chol_ with
      | some x => simp only [hg] at hL ⊢; rw [Except.ok.inj hL]
      | none =>
        simp only [hg] at hL ⊢
        generalize getCov env g = rg at hL ⊢
        obtain ⟨r, g'⟩ := rg
        cases r with
        | error e => simp at hL
        | ok a =>
          cases a with
          | none => simp at hL
          | some cv =>
            simp only at hL ⊢
            cases hs : spCholeskyL cv with
            | error e => simp [hs] at hL
            | ok d' => simp only [hs, Except.ok.injEq] at hL ⊢; rw [hL]
    generalize (getChol env g).2 = g' at hk
    simp only [getChol, setMean, setCov, setPrecision, setShift, hk]

/-- A state that claims dimension 2 after it was given a mean of length 3. -/
example : ((getDim calmEnv (ofMoment (.v ![1, -4]) (.m (Matrix.diagonal ![(2 : ℝ), 3])))).2.setMean (some (.v ![1, 2, 3]))).dim calmEnv = .ok 2 := by
  have h : (getDim calmEnv (ofMoment (.v ![1, -4]) (.m (Matrix.diagonal ![(2 : ℝ), 3])))).1 = .ok 2 := rfl
  have := (C11_dim_chol_stale (env := calmEnv) _ (some (.v ![1, 2, 3]))
    ((getDim calmEnv (ofMoment (.v ![1, -4]) (.m (Matrix.diagonal ![(2 : ℝ), 3])))).2.cov_)
    ((getDim calmEnv (ofMoment (.v ![1, -4]) (.m (Matrix.diagonal ![(2 : ℝ), 3])))).2.precision_)
    ((getDim calmEnv (ofMoment (.v ![1, -4]) (.m (Matrix.diagonal ![(2 : ℝ), 3])))).2.shift_)).1 2 h
  exact this

example : ((getShift calmEnv ((ofMoment (.v ![1, -4]) (.m (Matrix.diagonal ![(2 : ℝ), 3]))).setPrecision (some (.s 7)))).2.precision calmEnv) =
    .ok (some (.m (Matrix.diagonal ![(2 : ℝ), 3])⁻¹)) := (C11_assignment_lost _ posDef_two rfl _).2.1

end Verif
