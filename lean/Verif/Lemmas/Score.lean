import Verif.Lemmas.Indep
import Mathlib.MeasureTheory.Integral.Prod
import Mathlib.MeasureTheory.Function.SpecialFunctions.Basic

/-! Expected scores of estimates whose error is independent of the data. -/

namespace Verif

open Matrix MeasureTheory

variable {n : ℕ} {Ω β : Type*} [MeasurableSpace Ω] [MeasurableSpace β] {ℙ : Measure Ω} [IsProbabilityMeasure ℙ] {e : Ω → Fin n → ℝ} {Y : Ω → β}
  {C : Matrix (Fin n) (Fin n) ℝ}

/-- An error with mean zero and second moments `C`. -/
structure Centered (ℙ : Measure Ω) (e : Ω → Fin n → ℝ) (C : Matrix (Fin n) (Fin n) ℝ) : Prop where
  sq : SqInt ℙ e
  mean : ∀ a, ∫ ω, e ω a ∂ℙ = 0
  cov : cross ℙ e e = C

namespace Centered

omit [IsProbabilityMeasure ℙ] in
theorem aemeasurable (h : Centered ℙ e C) : AEMeasurable e ℙ := aemeasurable_pi_lambda _ fun a => (h.sq a).1.aemeasurable

theorem integrable (h : Centered ℙ e C) (a : Fin n) : Integrable (fun ω => e ω a) ℙ := (h.sq a).integrable (by norm_num)

/-- A quadratic form of the shifted error. -/
theorem form (h : Centered ℙ e C) (W : Matrix (Fin n) (Fin n) ℝ) (g : Fin n → ℝ) :
    Integrable (fun ω => (e ω + g) ⬝ᵥ W *ᵥ (e ω + g)) ℙ ∧
      ∫ ω, (e ω + g) ⬝ᵥ W *ᵥ (e ω + g) ∂ℙ = (W * (C + vecMulVec g g)).trace := by
  have ha : ∀ a, Integrable (fun ω => e ω a) ℙ := h.integrable
  have hab : ∀ a b, Integrable (fun ω => e ω a * e ω b) ℙ := fun a b => h.sq.mul h.sq a b
  have hc : ∀ a b, ∫ ω, e ω a * e ω b ∂ℙ = C a b := fun a b => congrFun (congrFun h.cov a) b
  have ht : ∀ a b, Integrable (fun ω => (e ω a + g a) * (e ω b + g b)) ℙ ∧ ∫ ω, (e ω a + g a) * (e ω b + g b) ∂ℙ = C a b + g a * g b :=
    fun a b => by
      have e1 : (fun ω => (e ω a + g a) * (e ω b + g b)) = fun ω => e ω a * e ω b + (g b * e ω a + (g a * e ω b + g a * g b)) := by
        funext ω; ring
      have i1 := (ha a).const_mul (g b)
      have i2 := (ha b).const_mul (g a)
      have i3 : Integrable (fun _ : Ω => g a * g b) ℙ := integrable_const _
      have i4 : Integrable (fun ω => g a * e ω b + g a * g b) ℙ := i2.add i3
      have i5 : Integrable (fun ω => g b * e ω a + (g a * e ω b + g a * g b)) ℙ := i1.add i4
      rw [e1]
      refine ⟨(hab a b).add i5, ?_⟩
      rw [integral_add (hab a b) i5, integral_add i1 i4, integral_add i2 i3, hc, integral_const_mul, integral_const_mul, h.mean, h.mean]
      simp
  have e2 : (fun ω => (e ω + g) ⬝ᵥ W *ᵥ (e ω + g)) = fun ω => ∑ a, ∑ b, W a b * ((e ω a + g a) * (e ω b + g b)) := by
    funext ω
    simp only [dotProduct, mulVec, Pi.add_apply, Finset.mul_sum]
    exact Finset.sum_congr rfl fun a _ => Finset.sum_congr rfl fun b _ => by ring
  rw [e2]
  have hi : ∀ a b, Integrable (fun ω => W a b * ((e ω a + g a) * (e ω b + g b))) ℙ := fun a b => (ht a b).1.const_mul _
  refine ⟨integrable_finsetSum _ fun a _ => integrable_finsetSum _ fun b _ => hi a b, ?_⟩
  rw [integral_finsetSum _ fun a _ => integrable_finsetSum _ fun b _ => hi a b, Matrix.trace]
  refine Finset.sum_congr rfl fun a _ => ?_
  rw [integral_finsetSum _ fun b _ => hi a b, diag_apply, Matrix.mul_apply]
  refine Finset.sum_congr rfl fun b _ => ?_
  rw [integral_const_mul, (ht a b).2]
  have hsym : C a b = C b a := by rw [← hc, ← hc]; simp only [mul_comm]
  simp only [Matrix.add_apply, vecMulVec_apply]
  rw [hsym]
  ring

/-- The law of error and data is a product. -/
theorem law (h : Centered ℙ e C) (hY : AEMeasurable Y ℙ) (hi : ProbabilityTheory.IndepFun e Y ℙ) :
    ℙ.map (fun ω => (e ω, Y ω)) = (ℙ.map e).prod (ℙ.map Y) :=
  (ProbabilityTheory.indepFun_iff_map_prod_eq_prod_map_map h.aemeasurable hY).1 hi

/-- No correction computed from the data reduces the mean square of a linear combination of the error. -/
theorem least (h : Centered ℙ e C) (hY : AEMeasurable Y ℙ) (hi : ProbabilityTheory.IndepFun e Y ℙ) {g : β → Fin n → ℝ} (hg : ∀ a, Measurable fun z => g z a)
    (u : Fin n → ℝ) : ENNReal.ofReal (quad C u) ≤ ∫⁻ ω, ENNReal.ofReal ((u ⬝ᵥ (e ω + g (Y ω))) ^ 2) ∂ℙ := by
  have hgm : Measurable g := measurable_pi_lambda _ hg
  have hF : Measurable fun p : (Fin n → ℝ) × β => ENNReal.ofReal ((u ⬝ᵥ (p.1 + g p.2)) ^ 2) := by
    simp only [dotProduct, Pi.add_apply]
    fun_prop
  have := Measure.isProbabilityMeasure_map hY (μ := ℙ)
  have := Measure.isProbabilityMeasure_map h.aemeasurable (μ := ℙ)
  have e1 : ∫⁻ ω, ENNReal.ofReal ((u ⬝ᵥ (e ω + g (Y ω))) ^ 2) ∂ℙ = ∫⁻ p, ENNReal.ofReal ((u ⬝ᵥ (p.1 + g p.2)) ^ 2) ∂(ℙ.map fun ω => (e ω, Y ω)) :=
    (lintegral_map' hF.aemeasurable (h.aemeasurable.prodMk hY)).symm
  rw [e1, h.law hY hi, lintegral_prod_symm' _ hF]
  calc ENNReal.ofReal (quad C u) = ∫⁻ _z, ENNReal.ofReal (quad C u) ∂(ℙ.map Y) := by simp
    _ ≤ _ := by
      refine lintegral_mono fun z => ?_
      dsimp only
      rw [lintegral_map' (by fun_prop) h.aemeasurable]
      obtain ⟨i1, i2⟩ := h.form (vecMulVec u u) (g z)
      have e2 : ∀ v : Fin n → ℝ, v ⬝ᵥ vecMulVec u u *ᵥ v = (u ⬝ᵥ v) ^ 2 := fun v => by
        rw [vecMulVec_mulVec, dotProduct_smul, _root_.sq]
        simp [dotProduct_comm]
      simp only [e2] at i1 i2
      rw [← ofReal_integral_eq_lintegral_ofReal i1 (.of_forall fun ω => sq_nonneg _), i2]
      refine ENNReal.ofReal_le_ofReal ?_
      have e3 : ∀ M : Matrix (Fin n) (Fin n) ℝ, (vecMulVec u u * M).trace = quad M u := fun M => by
        rw [quad, Matrix.trace_mul_comm, mul_vecMulVec, trace_vecMulVec, dotProduct_comm]
      rw [e3]
      have : 0 ≤ quad (vecMulVec (g z) (g z)) u := by
        rw [quad, vecMulVec_mulVec, dotProduct_smul]
        simp [dotProduct_comm, mul_self_nonneg]
      rw [quad, quad, add_mulVec, dotProduct_add] at *
      linarith

omit [IsProbabilityMeasure ℙ] in
private theorem measurable_det {p : ℕ} {D : β → Matrix (Fin p) (Fin p) ℝ} (hD : ∀ a b, Measurable fun z => D z a b) : Measurable fun z => (D z).det := by
  simp only [det_apply]
  refine Finset.measurable_sum _ fun σ _ => Measurable.const_smul (Finset.measurable_prod _ fun a _ => hD _ _) _

private theorem measurable_inv {D : β → Matrix (Fin n) (Fin n) ℝ} (hD : ∀ a b, Measurable fun z => D z a b) (a b : Fin n) :
    Measurable fun z => (D z)⁻¹ a b := by
  have h1 : ∀ z, (D z)⁻¹ a b = (D z).det⁻¹ * ((D z).updateRow b (Pi.single a 1)).det := fun z => by
    rw [Matrix.inv_def, Matrix.smul_apply, adjugate_apply, Ring.inverse_eq_inv', smul_eq_mul]
  simp only [h1]
  refine (measurable_det hD).inv.mul (measurable_det fun i j => ?_)
  simp only [updateRow_apply]
  split_ifs
  · exact measurable_const
  · exact hD i j

/-- No mean and covariance computed from the data have a smaller expected negative log density. -/
theorem score (h : Centered ℙ e C) (hC : C.PosDef) (hY : AEMeasurable Y ℙ) (hi : ProbabilityTheory.IndepFun e Y ℙ) {g : β → Fin n → ℝ}
    (hg : ∀ a, Measurable fun z => g z a) {D : β → Matrix (Fin n) (Fin n) ℝ} (hD : ∀ a b, Measurable fun z => D z a b) (hp : ∀ z, (D z).PosDef)
    (hint : Integrable (fun ω => Real.log (D (Y ω)).det + (e ω + g (Y ω)) ⬝ᵥ (D (Y ω))⁻¹ *ᵥ (e ω + g (Y ω))) ℙ) :
    Real.log C.det + n ≤ ∫ ω, (Real.log (D (Y ω)).det + (e ω + g (Y ω)) ⬝ᵥ (D (Y ω))⁻¹ *ᵥ (e ω + g (Y ω))) ∂ℙ := by
  set F : (Fin n → ℝ) × β → ℝ := fun p => Real.log (D p.2).det + (p.1 + g p.2) ⬝ᵥ (D p.2)⁻¹ *ᵥ (p.1 + g p.2) with hF
  have hFm : Measurable F := by
    have h1 : Measurable fun p : (Fin n → ℝ) × β => Real.log (D p.2).det := (measurable_det hD).log.comp measurable_snd
    have h2 : ∀ a b, Measurable fun p : (Fin n → ℝ) × β => (D p.2)⁻¹ a b := fun a b => (measurable_inv hD a b).comp measurable_snd
    have h3 : ∀ a, Measurable fun p : (Fin n → ℝ) × β => p.1 a + g p.2 a := fun a =>
      ((measurable_pi_apply a).comp measurable_fst).add ((hg a).comp measurable_snd)
    refine h1.add ?_
    simp only [dotProduct, mulVec, Pi.add_apply]
    exact Finset.measurable_sum _ fun a _ => (h3 a).mul (Finset.measurable_sum _ fun b _ => (h2 a b).mul (h3 b))
  have hm := h.aemeasurable.prodMk hY
  have := Measure.isProbabilityMeasure_map hY (μ := ℙ)
  have := Measure.isProbabilityMeasure_map h.aemeasurable (μ := ℙ)
  have e1 : ∫ ω, (Real.log (D (Y ω)).det + (e ω + g (Y ω)) ⬝ᵥ (D (Y ω))⁻¹ *ᵥ (e ω + g (Y ω))) ∂ℙ = ∫ p, F p ∂((ℙ.map e).prod (ℙ.map Y)) := by
    rw [← h.law hY hi, integral_map hm hFm.aestronglyMeasurable]
  have hFi : Integrable F ((ℙ.map e).prod (ℙ.map Y)) := by
    rw [← h.law hY hi]
    exact (integrable_map_measure hFm.aestronglyMeasurable hm).2 hint
  rw [e1, integral_prod_symm _ hFi]
  calc Real.log C.det + n = ∫ _z, (Real.log C.det + n) ∂(ℙ.map Y) := by simp
    _ ≤ _ := by
      refine integral_mono (integrable_const _) hFi.integral_prod_right fun z => ?_
      dsimp only [hF]
      have hz : AEStronglyMeasurable (fun v : Fin n → ℝ => F (v, z)) (ℙ.map e) := (hFm.comp measurable_prodMk_right).aestronglyMeasurable
      obtain ⟨i1, i2⟩ := h.form (D z)⁻¹ (g z)
      have e2 : ∫ v, F (v, z) ∂(ℙ.map e) = Real.log (D z).det + ((D z)⁻¹ * (C + vecMulVec (g z) (g z))).trace := by
        rw [integral_map h.aemeasurable hz, ← i2]
        simp only [hF]
        rw [integral_add (integrable_const _) i1]
        simp
      refine (gibbs hC (hp z) fun u => ?_).1.trans e2.ge
      rw [quad, quad, add_mulVec, dotProduct_add, vecMulVec_mulVec, dotProduct_smul]
      have : 0 ≤ u ⬝ᵥ g z * (g z ⬝ᵥ u) := by rw [dotProduct_comm]; exact mul_self_nonneg _
      simp only [MulOpposite.smul_eq_mul_unop, MulOpposite.unop_op]
      linarith

end Centered

end Verif
