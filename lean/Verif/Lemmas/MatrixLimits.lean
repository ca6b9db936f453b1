import Verif.Lemmas.Bayes
import Mathlib.Topology.Instances.Matrix
import Mathlib.Analysis.Normed.Module.FiniteDimension

/-! Limits of matrices: products, inverses, positive definiteness. -/

namespace Verif

open Matrix Filter Topology

variable {n k : ℕ}

theorem matrix_tendsto_inv {a : ℕ} {M : ℕ → Matrix (Fin a) (Fin a) ℝ} {P : Matrix (Fin a) (Fin a) ℝ} (hP : P.PosDef)
    (h : Tendsto M atTop (𝓝 P)) : Tendsto (fun N => (M N)⁻¹) atTop (𝓝 P⁻¹) := by
  have hd : ContinuousAt Ring.inverse P.det := by
    have : (Ring.inverse : ℝ → ℝ) = Inv.inv := funext fun x => Ring.inverse_eq_inv x
    rw [this]; exact continuousAt_inv₀ (posDef_det_ne hP)
  exact (continuousAt_matrix_inv P hd).tendsto.comp h

theorem matrix_tendsto_mul {a b c : ℕ} {M : ℕ → Matrix (Fin a) (Fin b) ℝ} {O : ℕ → Matrix (Fin b) (Fin c) ℝ}
    {P : Matrix (Fin a) (Fin b) ℝ} {W : Matrix (Fin b) (Fin c) ℝ} (h : Tendsto M atTop (𝓝 P)) (h' : Tendsto O atTop (𝓝 W)) :
    Tendsto (fun N => M N * O N) atTop (𝓝 (P * W)) :=
  ((continuous_fst.matrix_mul continuous_snd).tendsto (P, W)).comp (h.prodMk_nhds h')

theorem matrix_tendsto_mulVec {a b : ℕ} {M : ℕ → Matrix (Fin a) (Fin b) ℝ} {O : ℕ → Fin b → ℝ}
    {P : Matrix (Fin a) (Fin b) ℝ} {W : Fin b → ℝ} (h : Tendsto M atTop (𝓝 P)) (h' : Tendsto O atTop (𝓝 W)) :
    Tendsto (fun N => M N *ᵥ O N) atTop (𝓝 (P *ᵥ W)) :=
  ((continuous_fst.matrix_mulVec continuous_snd).tendsto (P, W)).comp (h.prodMk_nhds h')

theorem matrix_tendsto_T {a b : ℕ} {M : ℕ → Matrix (Fin a) (Fin b) ℝ} {P : Matrix (Fin a) (Fin b) ℝ} (h : Tendsto M atTop (𝓝 P)) :
    Tendsto (fun N => (M N)ᵀ) atTop (𝓝 Pᵀ) := (continuous_id.matrix_transpose.tendsto P).comp h

theorem posDef_eventually {a : ℕ} {M : ℕ → Matrix (Fin a) (Fin a) ℝ} {P : Matrix (Fin a) (Fin a) ℝ} (hP : P.PosDef)
    (h : Tendsto M atTop (𝓝 P)) (hs : ∀ᶠ N in atTop, (M N)ᵀ = M N) : ∀ᶠ N in atTop, (M N).PosDef := by
  have hpos : ∀ x : Fin a → ℝ, x ≠ 0 → 0 < x ⬝ᵥ P *ᵥ x := fun x hx => by
    have := hP.dotProduct_mulVec_pos hx
    simpa using this
  have hc : IsCompact (Metric.sphere (0 : Fin a → ℝ) 1) := isCompact_sphere _ _
  have key : ∀ᶠ S in 𝓝 P, ∀ x ∈ Metric.sphere (0 : Fin a → ℝ) 1, 0 < x ⬝ᵥ S *ᵥ x := by
    refine hc.eventually_forall_of_forall_eventually fun x hx => ?_
    have hx0 : x ≠ 0 := by
      rintro rfl
      simp at hx
    have hcont : Continuous fun w : Matrix (Fin a) (Fin a) ℝ × (Fin a → ℝ) => w.2 ⬝ᵥ w.1 *ᵥ w.2 :=
      continuous_snd.dotProduct (continuous_fst.matrix_mulVec continuous_snd)
    exact (hcont.tendsto (P, x)).eventually (lt_mem_nhds (hpos x hx0))
  filter_upwards [h.eventually key, hs] with N hN hsN
  refine PosDef.of_dotProduct_mulVec_pos (by rw [IsHermitian, conjTranspose_eq_transpose_of_trivial, hsN]) fun x hx => ?_
  have hn : 0 < ‖x‖ := norm_pos_iff.2 hx
  have hu := hN (‖x‖⁻¹ • x) (by rw [mem_sphere_zero_iff_norm, norm_smul, norm_inv, norm_norm, inv_mul_cancel₀ hn.ne'])
  rw [mulVec_smul, smul_dotProduct, dotProduct_smul, smul_eq_mul, smul_eq_mul] at hu
  have h1 : 0 < ‖x‖⁻¹ := inv_pos.2 hn
  have h2 : 0 < x ⬝ᵥ M N *ᵥ x := by
    by_contra hle
    push Not at hle
    have := mul_nonpos_of_nonneg_of_nonpos h1.le (mul_nonpos_of_nonneg_of_nonpos h1.le hle)
    linarith
  simpa using h2

theorem gainMat_eq {P : Matrix (Fin n) (Fin n) ℝ} {R : Matrix (Fin k) (Fin k) ℝ} (hP : P.PosSemidef) (hR : R.PosDef)
    (H : Matrix (Fin k) (Fin n) ℝ) : ((H * P * Hᵀ + R)⁻¹ * (P * Hᵀ)ᵀ)ᵀ = gainMat P H R := by
  rw [transpose_mul, transpose_transpose, posDef_inv_symm (innov_posDef hP hR H), gainMat]

end Verif
