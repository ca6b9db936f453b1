import Verif.Spec.Markov
import Verif.Lemmas.Posterior
import Verif.Spec.Transforms
import Mathlib.Analysis.Calculus.FDeriv.Add
import Mathlib.Analysis.Calculus.FDeriv.Mul
import Mathlib.Analysis.Calculus.FDeriv.Pi
import Mathlib.Analysis.Calculus.FDeriv.Comp
import Mathlib.Analysis.SpecialFunctions.ExpDeriv

/-! The derivative of the density of a trajectory, and the normal equations of the Gaussian smoother. -/

namespace Verif

open Matrix

variable {n k : ℕ}

/-- The linear form `d ↦ w ⬝ d`. -/
noncomputable def dotForm (w : Fin n → ℝ) : (Fin n → ℝ) →L[ℝ] ℝ := ∑ i, w i • ContinuousLinearMap.proj i

theorem dotForm_apply (w d : Fin n → ℝ) : dotForm w d = w ⬝ᵥ d := by
  simp [dotForm, dotProduct]

theorem hasFDerivAt_quad {W : Matrix (Fin n) (Fin n) ℝ} (hW : Wᵀ = W) (v : Fin n → ℝ) :
    HasFDerivAt (fun v : Fin n → ℝ => v ⬝ᵥ W *ᵥ v) (dotForm ((2 : ℝ) • (W *ᵥ v))) v := by
  have h : HasFDerivAt (fun v : Fin n → ℝ => ∑ i, v i * ∑ j, W i j * v j) (∑ i, (v i • ∑ j, W i j • ContinuousLinearMap.proj j +
      (∑ j, W i j * v j) • ContinuousLinearMap.proj i : (Fin n → ℝ) →L[ℝ] ℝ)) v :=
    HasFDerivAt.fun_sum fun i _ => (hasFDerivAt_apply i v).mul (HasFDerivAt.fun_sum fun j _ => (hasFDerivAt_apply j v).const_mul (W i j))
  refine h.congr_fderiv (ContinuousLinearMap.ext fun d => ?_)
  have e : ∑ i, (v i • ∑ j, W i j • ContinuousLinearMap.proj j + (∑ j, W i j * v j) • ContinuousLinearMap.proj i :
      (Fin n → ℝ) →L[ℝ] ℝ) d = v ⬝ᵥ W *ᵥ d + (W *ᵥ v) ⬝ᵥ d := by
    simp [dotProduct, mulVec, Finset.sum_add_distrib]
  rw [_root_.sum_apply, e, dot_symm hW, dotForm_apply, smul_dotProduct, dotProduct_comm d, two_smul]

/-- The exponent of a normal density of a differentiable residual. -/
theorem hasFDerivAt_exponent {E : Type*} [NormedAddCommGroup E] [NormedSpace ℝ E] {W : Matrix (Fin n) (Fin n) ℝ} (hW : Wᵀ = W)
    {r : E → Fin n → ℝ} {r' : E →L[ℝ] (Fin n → ℝ)} {x : E} (hr : HasFDerivAt r r' x) :
    HasFDerivAt (fun x => -(r x ⬝ᵥ W *ᵥ r x) / 2) (-((dotForm (W *ᵥ r x)).comp r')) x := by
  have h := (((hasFDerivAt_quad hW (r x)).comp x hr).neg).mul_const (2⁻¹ : ℝ)
  refine (h.congr_fderiv ?_)
  ext d
  simp [dotForm_apply, smul_dotProduct]

theorem mulVec_jacMat (F' : (Fin n → ℝ) →L[ℝ] (Fin k → ℝ)) (d : Fin n → ℝ) : jacMat F' *ᵥ d = F' d := by
  have e : d = ∑ j, d j • (Pi.single j 1 : Fin n → ℝ) := by
    ext i; simp [Finset.sum_apply, Pi.single_apply]
  conv_rhs => rw [e]
  rw [map_sum]
  ext i
  simp [mulVec, dotProduct, Finset.sum_apply, mul_comm]

namespace Markov

variable {N : ℕ} {S : Markov n k N} {y : Fin N → Fin k → ℝ}

/-- The exponent of the density. -/
noncomputable def expo (S : Markov n k N) (y : Fin N → Fin k → ℝ) (x : Fin (N + 1) → Fin n → ℝ) : ℝ :=
  -((x 0 - S.m0) ⬝ᵥ S.P0⁻¹ *ᵥ (x 0 - S.m0)) / 2 + ∑ j : Fin N,
    (-((x j.succ - S.f j (x j.castSucc)) ⬝ᵥ S.Q⁻¹ *ᵥ (x j.succ - S.f j (x j.castSucc))) / 2 +
      -((y j - S.h j (x j.succ)) ⬝ᵥ S.R⁻¹ *ᵥ (y j - S.h j (x j.succ))) / 2)

/-- The normalising constant. -/
noncomputable def const (S : Markov n k N) : ℝ :=
  (Real.sqrt S.P0.det * Real.sqrt (2 * Real.pi) ^ n)⁻¹ *
    ∏ _j : Fin N, ((Real.sqrt S.Q.det * Real.sqrt (2 * Real.pi) ^ n)⁻¹ * (Real.sqrt S.R.det * Real.sqrt (2 * Real.pi) ^ k)⁻¹)

theorem density_eq (S : Markov n k N) (y : Fin N → Fin k → ℝ) (x : Fin (N + 1) → Fin n → ℝ) :
    S.density y x = S.const * Real.exp (S.expo y x) := by
  unfold density const expo normalPdf
  rw [Real.exp_add, Real.exp_sum, mul_mul_mul_comm, ← Finset.prod_mul_distrib]
  congr 1
  refine Finset.prod_congr rfl fun j _ => ?_
  rw [Real.exp_add]
  ring

theorem Good.const_pos (h : S.Good) : 0 < S.const := by
  have h1 := Real.sqrt_pos.2 h.P0.det_pos
  have h2 := Real.sqrt_pos.2 h.Q.det_pos
  have h3 := Real.sqrt_pos.2 h.R.det_pos
  have h4 : 0 < Real.sqrt (2 * Real.pi) := Real.sqrt_pos.2 (by positivity)
  unfold Markov.const
  exact mul_pos (by positivity) (Finset.prod_pos fun _ _ => by positivity)

/-- The derivative of the exponent in direction `d`. -/
noncomputable def slope (S : Markov n k N) (y : Fin N → Fin k → ℝ) (A : Fin N → Matrix (Fin n) (Fin n) ℝ)
    (H : Fin N → Matrix (Fin k) (Fin n) ℝ) (x d : Fin (N + 1) → Fin n → ℝ) : ℝ :=
  -(S.P0⁻¹ *ᵥ (x 0 - S.m0) ⬝ᵥ d 0) + ∑ j : Fin N,
    (-(S.Q⁻¹ *ᵥ (x j.succ - S.f j (x j.castSucc)) ⬝ᵥ (d j.succ - A j *ᵥ d j.castSucc)) +
      S.R⁻¹ *ᵥ (y j - S.h j (x j.succ)) ⬝ᵥ (H j *ᵥ d j.succ))

theorem Good.expo_deriv (h : S.Good) {x : Fin (N + 1) → Fin n → ℝ} {f' : Fin N → (Fin n → ℝ) →L[ℝ] (Fin n → ℝ)}
    {h' : Fin N → (Fin n → ℝ) →L[ℝ] (Fin k → ℝ)} (hf : ∀ j : Fin N, HasFDerivAt (S.f j) (f' j) (x j.castSucc))
    (hh : ∀ j : Fin N, HasFDerivAt (S.h j) (h' j) (x j.succ)) :
    ∃ D : (Fin (N + 1) → Fin n → ℝ) →L[ℝ] ℝ, HasFDerivAt (S.expo y) D x ∧
      ∀ d, D d = S.slope y (fun j => jacMat (f' j)) (fun j => jacMat (h' j)) x d := by
  have hx : ∀ i : Fin (N + 1), HasFDerivAt (fun x : Fin (N + 1) → Fin n → ℝ => x i) (ContinuousLinearMap.proj i) x :=
    fun i => hasFDerivAt_apply (𝕜 := ℝ) i x
  have h0 := hasFDerivAt_exponent (posDef_inv_symm h.P0) ((hx 0).sub_const S.m0)
  have hq : ∀ j : Fin N, _ := fun j => hasFDerivAt_exponent (posDef_inv_symm h.Q) ((hx j.succ).sub ((hf j).comp x (hx j.castSucc)))
  have hr : ∀ j : Fin N, _ := fun j => hasFDerivAt_exponent (posDef_inv_symm h.R) (((hh j).comp x (hx j.succ)).const_sub (y j))
  refine ⟨_, h0.add (HasFDerivAt.fun_sum fun j _ => (hq j).add (hr j)), fun d => ?_⟩
  simp [slope, dotForm_apply, mulVec_jacMat]

/-- A trajectory is stationary exactly if the derivative of the exponent vanishes in all directions. -/
theorem Good.stationary_iff (h : S.Good) {x : Fin (N + 1) → Fin n → ℝ} {f' : Fin N → (Fin n → ℝ) →L[ℝ] (Fin n → ℝ)}
    {h' : Fin N → (Fin n → ℝ) →L[ℝ] (Fin k → ℝ)} (hf : ∀ j : Fin N, HasFDerivAt (S.f j) (f' j) (x j.castSucc))
    (hh : ∀ j : Fin N, HasFDerivAt (S.h j) (h' j) (x j.succ)) :
    S.Stationary y x ↔ ∀ d, S.slope y (fun j => jacMat (f' j)) (fun j => jacMat (h' j)) x d = 0 := by
  obtain ⟨D, hD, hD'⟩ := h.expo_deriv (y := y) hf hh
  have he : HasFDerivAt (S.density y) (S.const • (Real.exp (S.expo y x) • D)) x := by
    rw [show S.density y = fun x => S.const * Real.exp (S.expo y x) from funext (density_eq S y)]
    exact hD.exp.const_mul _
  constructor
  · intro hs d
    have e := congrArg (fun T : (Fin (N + 1) → Fin n → ℝ) →L[ℝ] ℝ => T d) (he.unique hs)
    have e' : S.const * (Real.exp (S.expo y x) * D d) = 0 := e
    rw [← hD']
    exact (mul_eq_zero.1 ((mul_eq_zero.1 e').resolve_left h.const_pos.ne')).resolve_left (Real.exp_ne_zero _)
  · intro h0
    have : D = 0 := by ext1 d; rw [hD', h0]; rfl
    rw [this] at he
    simpa [Stationary] using he

/-- The slope vanishes if the normal equations hold. -/
theorem slope_zero {A : Fin N → Matrix (Fin n) (Fin n) ℝ} {H : Fin N → Matrix (Fin k) (Fin n) ℝ} {x : Fin (N + 1) → Fin n → ℝ}
    {σ : Fin (N + 1) → Fin n → ℝ} (h0 : S.P0⁻¹ *ᵥ (x 0 - S.m0) = σ 0) (hl : σ (Fin.last N) = 0)
    (hA : ∀ j : Fin N, σ j.castSucc = (A j)ᵀ *ᵥ (S.Q⁻¹ *ᵥ (x j.succ - S.f j (x j.castSucc))))
    (hH : ∀ j : Fin N, S.Q⁻¹ *ᵥ (x j.succ - S.f j (x j.castSucc)) =
      σ j.succ + (H j)ᵀ *ᵥ (S.R⁻¹ *ᵥ (y j - S.h j (x j.succ)))) (d : Fin (N + 1) → Fin n → ℝ) : S.slope y A H x d = 0 := by
  have key : ∀ j : Fin N, -(S.Q⁻¹ *ᵥ (x j.succ - S.f j (x j.castSucc)) ⬝ᵥ (d j.succ - A j *ᵥ d j.castSucc)) +
      S.R⁻¹ *ᵥ (y j - S.h j (x j.succ)) ⬝ᵥ (H j *ᵥ d j.succ) = σ j.castSucc ⬝ᵥ d j.castSucc - σ j.succ ⬝ᵥ d j.succ := fun j => by
    have t : ∀ {r c : ℕ} (M : Matrix (Fin r) (Fin c) ℝ) (a : Fin r → ℝ) (b : Fin c → ℝ), a ⬝ᵥ M *ᵥ b = (Mᵀ *ᵥ a) ⬝ᵥ b :=
      fun M a b => by rw [dotProduct_mulVec, mulVec_transpose]
    rw [dotProduct_sub, t, t, ← hA]
    conv_lhs => enter [1, 1, 1, 1]; rw [hH]
    rw [add_dotProduct]
    ring
  unfold slope
  simp only [key]
  rw [h0, Finset.sum_sub_distrib]
  have e1 := Fin.sum_univ_castSucc fun i => σ i ⬝ᵥ d i
  have e2 := Fin.sum_univ_succ fun i => σ i ⬝ᵥ d i
  rw [hl, zero_dotProduct] at e1
  linarith

end Markov

namespace StateSpace

variable {L : StateSpace n k} {y : ℕ → Fin k → ℝ}

/-- The multipliers: `P̄⁻¹ (s - m̄)` for the predicted mean and covariance of the state `i + 1`. -/
noncomputable def mult (L : StateSpace n k) (y : ℕ → Fin k → ℝ) (i : ℕ) (s : Fin n → ℝ) : Fin n → ℝ :=
  (L.A i * (L.filt y i).2 * (L.A i)ᵀ + L.Q)⁻¹ *ᵥ (s - (L.A i *ᵥ (L.filt y i).1 + L.b i))

theorem smth_sub (L : StateSpace n k) (y : ℕ → Fin k → ℝ) (i d : ℕ) : (L.smth y i (d + 1)).1 - (L.filt y i).1 =
    (L.filt y i).2 *ᵥ ((L.A i)ᵀ *ᵥ L.mult y i (L.smth y (i + 1) d).1) := by
  simp only [StateSpace.smth, StateSpace.gain, gainMat, mult]
  rw [mulVec_mulVec, mulVec_mulVec, mulVec_sub, Matrix.mul_assoc]
  simp only [Matrix.mul_assoc]
  abel

/-- The multiplier is the weighted residual of the transition. -/
theorem Good.resid (h : L.Good) (i d : ℕ) : L.Q⁻¹ *ᵥ ((L.smth y (i + 1) d).1 - (L.A i *ᵥ (L.smth y i (d + 1)).1 + L.b i)) =
    L.mult y i (L.smth y (i + 1) d).1 := by
  have h1 := L.smth_sub y i d
  have h2 : (L.A i * (L.filt y i).2 * (L.A i)ᵀ + L.Q) *ᵥ L.mult y i (L.smth y (i + 1) d).1 =
      (L.smth y (i + 1) d).1 - (L.A i *ᵥ (L.filt y i).1 + L.b i) := by
    rw [mult, mulVec_mulVec, posDef_mul_inv (h.pred i), one_mulVec]
  have h3 : (L.smth y (i + 1) d).1 - (L.A i *ᵥ (L.smth y i (d + 1)).1 + L.b i) = L.Q *ᵥ L.mult y i (L.smth y (i + 1) d).1 := by
    rw [eq_add_of_sub_eq h1, mulVec_add, mulVec_mulVec, mulVec_mulVec]
    rw [add_mulVec] at h2
    rw [add_assoc, sub_add_eq_sub_sub_swap, ← h2]
    abel
  rw [h3, mulVec_mulVec, posDef_inv_mul h.Q, one_mulVec]

/-- The information form of the correction. -/
theorem Good.info (h : L.Good) (i : ℕ) (s : Fin n → ℝ) : ((L.filt y (i + 1)).2)⁻¹ *ᵥ (s - (L.filt y (i + 1)).1) =
    L.mult y i s - (L.H i)ᵀ *ᵥ (L.R⁻¹ *ᵥ (y i - (L.H i *ᵥ s + L.c i))) := by
  have e := info_mulVec_condMean (h.pred (y := y) i) h.R (L.H i) (L.A i *ᵥ (L.filt y i).1 + L.b i) (L.c i) (y i)
  simp only [StateSpace.filt]
  rw [mulVec_sub, e, condCov_inv (h.pred i) h.R, mult, add_mulVec]
  simp only [mulVec_sub, mulVec_add, mulVec_mulVec, Matrix.mul_assoc]
  abel

/-- The normal equation of an inner state. -/
theorem Good.normal (h : L.Good) (i d : ℕ) :
    L.Q⁻¹ *ᵥ ((L.smth y (i + 1) (d + 1)).1 - (L.A i *ᵥ (L.smth y i (d + 1 + 1)).1 + L.b i)) =
      (L.A (i + 1))ᵀ *ᵥ (L.Q⁻¹ *ᵥ ((L.smth y (i + 2) d).1 - (L.A (i + 1) *ᵥ (L.smth y (i + 1) (d + 1)).1 + L.b (i + 1)))) +
      (L.H i)ᵀ *ᵥ (L.R⁻¹ *ᵥ (y i - (L.H i *ᵥ (L.smth y (i + 1) (d + 1)).1 + L.c i))) := by
  have h1 := h.info (y := y) i (L.smth y (i + 1) (d + 1)).1
  rw [L.smth_sub, mulVec_mulVec, posDef_inv_mul (h.filt _), one_mulVec] at h1
  rw [h.resid, h.resid (i + 1) d, h1]
  abel

/-- The normal equation of the last state. -/
theorem Good.normal_last (h : L.Good) (i : ℕ) :
    L.Q⁻¹ *ᵥ ((L.smth y (i + 1) 0).1 - (L.A i *ᵥ (L.smth y i 1).1 + L.b i)) =
      (L.H i)ᵀ *ᵥ (L.R⁻¹ *ᵥ (y i - (L.H i *ᵥ (L.smth y (i + 1) 0).1 + L.c i))) := by
  have h1 := h.info (y := y) i (L.smth y (i + 1) 0).1
  rw [show (L.smth y (i + 1) 0).1 = (L.filt y (i + 1)).1 from rfl, sub_self, mulVec_zero] at h1
  rw [h.resid i 0]
  exact (sub_eq_zero.1 h1.symm)

/-- The normal equation of the state before the first measurement. -/
theorem Good.normal_first (h : L.Good) (d : ℕ) :
    L.P0⁻¹ *ᵥ ((L.smth y 0 (d + 1)).1 - L.m0) =
      (L.A 0)ᵀ *ᵥ (L.Q⁻¹ *ᵥ ((L.smth y 1 d).1 - (L.A 0 *ᵥ (L.smth y 0 (d + 1)).1 + L.b 0))) := by
  have h1 := L.smth_sub y 0 d
  rw [h.resid 0 d]
  rw [show (L.filt y 0).1 = L.m0 from rfl, show (L.filt y 0).2 = L.P0 from rfl] at h1
  rw [h1, mulVec_mulVec, posDef_inv_mul h.P0, one_mulVec]

end StateSpace

end Verif
