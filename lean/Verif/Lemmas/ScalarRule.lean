import Verif.Spec.Scalar
import Verif.Lemmas.Transforms

/-! The unscented transform on the line. -/

namespace Verif

open Matrix Gaussian

variable {env : Env}

theorem cholU_m1 {p : ℝ} (hp : (m1 p).PosDef) : cholU hp = m1 (√p) := by
  have h := cholU_spec hp
  have hp' : 0 < p := m1_posDef.1 hp
  have h1 := h.diag_pos 0
  have h2 := h.mul_eq
  generalize cholU hp = L at *
  rw [m1_ext L] at h2 ⊢
  rw [m1_transpose, m1_mul, m1_injective] at h2
  rw [m1_injective, ← h2, Real.sqrt_mul_self h1.le]

theorem sigmaPoints_num {u : UT} (hn : u.n = 1) (hu : 0 ≤ (u.n : ℝ) + u.lam) (b : Bool) {m p : ℝ} (hp : 0 < p) :
    u.sigmaPoints (some (num b m)) (some (.m (m1 p))) =
      .ok (.m (sigmaMat (v1 m) (m1 (√p)) (√(u.n + u.lam)))) := by
  have hP := m1_posDef.2 hp
  cases b with
  | false => rw [num, if_neg (by simp), sigmaPoints_ok hP hu, cholU_m1]
  | true =>
    simp only [num, if_true, UT.sigmaPoints, if_neg (not_lt.2 hu), need, ok_bind, symmetrize_symm (posDef_symm hP),
      spCholeskyU_posDef hP, cholU_m1, tryBare_ok, Arr.smul_m, Arr.add_mm, Arr.sub_mm, vstack2_mm]
    refine congrArg (fun M => Except.ok (Arr.m M)) ?_
    rfl

theorem sum_three {M : Type} [AddCommMonoid M] (f : Fin (1 + 1 + 1) → M) : ∑ i, f i = f 0 + f 1 + f 2 := Fin.sum_univ_three f

theorem unscented_realises {a b k : ℝ} {u : UT} (hu : UT.init 1 a b k = .ok u) (hpos : 0 < a ^ 2 * (1 + k)) {f : Func} {F : ℝ → ℝ}
    (hf : OnColumns f F) : Realises env (u.transform env) f (unscented a b k F) := by
  intro g fl m p hg hp
  obtain ⟨h0, rfl⟩ := ut_init hu
  have hn : a * a * ((1 : ℕ) + k) = a ^ 2 * (1 + k) := by push_cast; ring
  have e1 : (1 : ℝ) + (a ^ 2 * (1 + k) - 1) = a ^ 2 * (1 + k) := by ring
  have hsq : √(a ^ 2 * (1 + k)) * √p = √(a ^ 2 * (1 + k) * p) := (Real.sqrt_mul hpos.le p).symm
  have hσ := sigmaPoints_num (u := ⟨1, a * a * ((1 : ℕ) + k) - (1 : ℕ), UT.meanWeights 1 a k,
      (UT.wLeft (UT.meanWeights 1 a k))ᵀ * Matrix.diagonal (UT.covWeights 1 a b k) * UT.wLeft (UT.meanWeights 1 a k)⟩) rfl
      (by rw [hn]; push_cast; rw [e1]; exact hpos.le) fl (m := m) hp
  rw [ut_transform_of hg.1 hg.2 hσ (hf _ _)]
  have hp0 : sigmaMat (v1 m) (m1 (√p)) (√((1 : ℕ) + (a * a * ((1 : ℕ) + k) - (1 : ℕ)))) 0 0 = m := by
    exact congrFun (sigmaMat_centre (v1 m) _ _ 0) 0
  have hp1 : sigmaMat (v1 m) (m1 (√p)) (√((1 : ℕ) + (a * a * ((1 : ℕ) + k) - (1 : ℕ)))) 1 0 = m + √(a ^ 2 * (1 + k) * p) := by
    refine (congrFun (sigmaMat_plus (v1 m) _ _ 0) 0).trans ?_
    rw [hn]; push_cast; rw [e1, m1_apply, v1_apply, hsq]
  have hp2 : sigmaMat (v1 m) (m1 (√p)) (√((1 : ℕ) + (a * a * ((1 : ℕ) + k) - (1 : ℕ)))) 2 0 = m - √(a ^ 2 * (1 + k) * p) := by
    refine (congrFun (sigmaMat_minus (v1 m) _ _ 0) 0).trans ?_
    rw [hn]; push_cast; rw [e1, m1_apply, v1_apply, hsq]
  have hμ := congrFun (vecMul_sigma (n := 1) (alpha := a) (kappa := k) h0 (v1 m) (m1 (√p)) (√((1 : ℕ) + (a * a * ((1 : ℕ) + k) - (1 : ℕ))))) 0
  generalize sigmaMat (v1 m) (m1 (√p)) (√((1 : ℕ) + (a * a * ((1 : ℕ) + k) - (1 : ℕ)))) = σ at *
  have w0 : UT.meanWeights 1 a k 0 = (a ^ 2 * (1 + k) - 1) / (a ^ 2 * (1 + k)) := by
    simp only [UT.meanWeights]; push_cast
    rw [if_pos (by rfl)]
    congr 1 <;> ring
  have w1 : ∀ i : Fin (1 + 1 + 1), i.val ≠ 0 → UT.meanWeights 1 a k i = 1 / (2 * (a ^ 2 * (1 + k))) := fun i hi => by
    simp only [UT.meanWeights, if_neg hi]; push_cast
    congr 1; ring
  have c0 : UT.covWeights 1 a b k 0 = (a ^ 2 * (1 + k) - 1) / (a ^ 2 * (1 + k)) + (1 - a ^ 2 + b) := by
    simp only [UT.covWeights]; push_cast
    rw [if_pos (by rfl)]
    congr 1
    · congr 1 <;> ring
    · ring
  have c1 : ∀ i : Fin (1 + 1 + 1), i.val ≠ 0 → UT.covWeights 1 a b k i = 1 / (2 * (a ^ 2 * (1 + k))) := fun i hi => by
    simp only [UT.covWeights, if_neg hi]; push_cast
    congr 1; ring
  have hX : (UT.meanWeights 1 a k ᵥ* (of fun i _ => F (σ i 0) : Matrix (Fin (1 + 1 + 1)) (Fin 1) ℝ)) 0 = (unscented a b k F).X m p := by
    simp only [vecMul, dotProduct, sum_three, of_apply, hp0, hp1, hp2, w0, w1 1 (by decide), w1 2 (by decide), unscented]
  refine congrArg Except.ok ?_
  refine Prod.ext ?_ (Prod.ext ?_ ?_)
  · refine congrArg Arr.v ?_
    rw [v1_ext (_ ᵥ* _), hX]
  · refine congrArg Arr.m ?_
    rw [m1_ext (_ • _)]
    simp only [Matrix.smul_apply, Matrix.add_apply, transpose_apply, weighted_form, hX, smul_eq_mul]
    simp only [sum_three, of_apply, hp0, hp1, hp2, c0, c1 1 (by decide), c1 2 (by decide)]
    rw [m1_injective]
    simp only [unscented]
    ring
  · refine congrArg Arr.m ?_
    rw [m1_ext (_ * _)]
    simp only [weighted_form, hX, hμ]
    simp only [sum_three, of_apply, hp0, hp1, hp2, c0, c1 1 (by decide), c1 2 (by decide), v1_apply]
    rw [m1_injective]
    simp only [unscented]
    ring

/-- The unscented rule with a nonnegative weight at the centre. -/
theorem unscented_schwarz {a b k : ℝ} (F : ℝ → ℝ) (hpos : 0 < a ^ 2 * (1 + k))
    (hw : 0 ≤ (a ^ 2 * (1 + k) - 1) / (a ^ 2 * (1 + k)) + (1 - a ^ 2 + b)) : (unscented a b k F).Schwarz := by
  intro m p hp
  set X := (unscented a b k F).X m p with hX
  have hS : (unscented a b k F).S m p = ((a ^ 2 * (1 + k) - 1) / (a ^ 2 * (1 + k)) + (1 - a ^ 2 + b)) * (F m - X) ^ 2 +
      1 / (2 * (a ^ 2 * (1 + k))) * (F (m + √(a ^ 2 * (1 + k) * p)) - X) ^ 2 +
      1 / (2 * (a ^ 2 * (1 + k))) * (F (m - √(a ^ 2 * (1 + k) * p)) - X) ^ 2 := rfl
  have hC : (unscented a b k F).C m p = 1 / (2 * (a ^ 2 * (1 + k))) * √(a ^ 2 * (1 + k) * p) * (F (m + √(a ^ 2 * (1 + k) * p)) - X) -
      1 / (2 * (a ^ 2 * (1 + k))) * √(a ^ 2 * (1 + k) * p) * (F (m - √(a ^ 2 * (1 + k) * p)) - X) := rfl
  have hs := Real.mul_self_sqrt (mul_nonneg hpos.le hp.le)
  rw [hS, hC]
  generalize F (m + √(a ^ 2 * (1 + k) * p)) - X = A at *
  generalize F (m - √(a ^ 2 * (1 + k) * p)) - X = B at *
  generalize F m - X = D at *
  generalize (a ^ 2 * (1 + k) - 1) / (a ^ 2 * (1 + k)) + (1 - a ^ 2 + b) = c at *
  generalize √(a ^ 2 * (1 + k) * p) = s at *
  generalize a ^ 2 * (1 + k) = n at *
  have hn : 0 < 1 / (2 * n) := by positivity
  refine ⟨by positivity, ?_⟩
  have e : (1 / (2 * n) * s * A - 1 / (2 * n) * s * B) ^ 2 = 1 / (2 * n) * p * ((A - B) ^ 2 / 2) := by
    have : (1 / (2 * n) * s * A - 1 / (2 * n) * s * B) ^ 2 = (1 / (2 * n)) ^ 2 * (s * s) * (A - B) ^ 2 := by ring
    rw [this, hs]; field_simp
  rw [e]
  have h1 : (A - B) ^ 2 / 2 ≤ A ^ 2 + B ^ 2 := by nlinarith [sq_nonneg (A + B)]
  have h2 : 1 / (2 * n) * p * ((A - B) ^ 2 / 2) ≤ 1 / (2 * n) * p * (A ^ 2 + B ^ 2) := mul_le_mul_of_nonneg_left h1 (by positivity)
  have h3 : 0 ≤ p * (c * D ^ 2) := by positivity
  nlinarith

end Verif
