import Verif.Spec.Gaussian
import Verif.Lemmas.Gaussian

/-! The operators of `Gaussian` in terms of natural parameters. -/

namespace Verif

open Matrix Gaussian

theorem hasNatural_ofNatural (env : Env) {n} (P : Matrix (Fin n) (Fin n) ℝ) (h : Fin n → ℝ) :
    HasNatural env (ofNatural (.m P) (.v h)) P h := ⟨by simp, by simp⟩

theorem hasMoments_ofMoment (env : Env) {n} (μ : Fin n → ℝ) (C : Matrix (Fin n) (Fin n) ℝ) :
    HasMoments env (ofMoment (.v μ) (.m C)) μ C := ⟨by simp, by simp⟩

variable {env : Env} {n : ℕ} {a b : Gaussian} {P Q : Matrix (Fin n) (Fin n) ℝ} {h k : Fin n → ℝ}

theorem HasNatural.precisionA (H : HasNatural env a P h) : a.precisionA env = .ok (.m P) := by
  simp [Gaussian.precisionA, H.1]
theorem HasNatural.shiftA (H : HasNatural env a P h) : a.shiftA env = .ok (.v h) := by
  simp [Gaussian.shiftA, H.2]
theorem HasMoments.meanA (H : HasMoments env a h P) : a.meanA env = .ok (.v h) := by
  simp [Gaussian.meanA, H.1]
theorem HasMoments.covA (H : HasMoments env a h P) : a.covA env = .ok (.m P) := by
  simp [Gaussian.covA, H.2]

theorem mul_natural' (ha : HasNatural env a P h) (hb : HasNatural env b Q k) :
    a.mul env b = .ok (ofNatural (.m ((2 : ℝ)⁻¹ • ((P + Q) + (P + Q)ᵀ))) (.v (h + k))) := by
  simp only [Gaussian.mul, ha.precisionA, hb.precisionA, ha.shiftA, hb.shiftA, ok_bind, Arr.add_mm, Arr.add_vv,
    symmetrize_m, py_pure]

theorem mul_natural (ha : HasNatural env a P h) (hb : HasNatural env b Q k) (hP : Pᵀ = P) (hQ : Qᵀ = Q) :
    a.mul env b = .ok (ofNatural (.m (P + Q)) (.v (h + k))) := by
  rw [mul_natural' ha hb, half_add_self]
  rw [transpose_add, hP, hQ]

theorem truediv_natural (ha : HasNatural env a P h) (hb : HasNatural env b Q k) :
    a.truediv env b = .ok (ofNatural (.m (P - Q)) (.v (h - k))) := by
  simp only [Gaussian.truediv, ha.precisionA, hb.precisionA, ha.shiftA, hb.shiftA, ok_bind, Arr.sub_mm, Arr.sub_vv,
    py_pure]

theorem pow_natural (ha : HasNatural env a P h) (p : ℝ) :
    a.pow env p = .ok (ofNatural (.m (p • P)) (.v (p • h))) := by
  simp only [Gaussian.pow, ha.precisionA, ha.shiftA, ok_bind, Arr.smul_m, Arr.smul_v, py_pure]

theorem hasNatural_inj {P' : Matrix (Fin n) (Fin n) ℝ} {h' : Fin n → ℝ}
    (H : HasNatural env a P h) (H' : HasNatural env a P' h') : P = P' ∧ h = h' := by
  have h1 := H.1.symm.trans H'.1
  have h2 := H.2.symm.trans H'.2
  simp only [Except.ok.injEq, Option.some.injEq] at h1 h2
  exact ⟨Arr.m_inj.1 h1, Arr.v_inj.1 h2⟩

/-- Symmetrising a matrix does not change its quadratic form. -/
theorem quad_symmetrize (A : Matrix (Fin n) (Fin n) ℝ) (x : Fin n → ℝ) :
    x ⬝ᵥ ((2 : ℝ)⁻¹ • (A + Aᵀ)) *ᵥ x = x ⬝ᵥ A *ᵥ x := by
  have h : x ⬝ᵥ Aᵀ *ᵥ x = x ⬝ᵥ A *ᵥ x := by
    rw [mulVec_transpose, dotProduct_comm, ← dotProduct_mulVec]
  rw [smul_mulVec, dotProduct_smul, add_mulVec, dotProduct_add, h, smul_eq_mul]
  ring

theorem unnorm_add (P Q : Matrix (Fin n) (Fin n) ℝ) (h k x : Fin n → ℝ) :
    unnorm (P + Q) (h + k) x = unnorm P h x * unnorm Q k x := by
  simp only [unnorm, ← Real.exp_add, add_mulVec, dotProduct_add]
  congr 1; ring

theorem unnorm_symmetrize (P : Matrix (Fin n) (Fin n) ℝ) (h x : Fin n → ℝ) :
    unnorm ((2 : ℝ)⁻¹ • (P + Pᵀ)) h x = unnorm P h x := by
  simp only [unnorm, quad_symmetrize]

open Classical in
theorem allclose_vv (r t : ℝ) (f g : Fin n → ℝ) :
    allclose r t (.v f) (.v g) = .ok (decide (∀ i, |f i - g i| ≤ t + r * |g i|)) := by
  simp [allclose, Arr.zip, Arr.entries, List.mem_ofFn]

open Classical in
theorem allclose_mm (r t : ℝ) (A B : Matrix (Fin n) (Fin n) ℝ) :
    allclose r t (.m A) (.m B) = .ok (decide (∀ i j, |A i j - B i j| ≤ t + r * |B i j|)) := by
  simp [allclose, Arr.zip, Arr.entries, List.mem_ofFn]
  constructor
  · intro h i j
    have := h _ i j rfl
    by_contra hc
    rw [if_neg hc] at this
    exact zero_ne_one this
  · rintro h x i j rfl
    rw [if_pos (h i j)]

end Verif
