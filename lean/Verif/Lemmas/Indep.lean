import Verif.Lemmas.Combination
import Verif.Lemmas.Gibbs
import Mathlib.Probability.Distributions.Gaussian.HasGaussianLaw.Independence

/-! Normal draws: errors of filter and smoother are independent of the measurements. -/

namespace Verif

open Matrix MeasureTheory StateSpace

variable {n k : ℕ} {Ω : Type*} [MeasurableSpace Ω] {ℙ : Measure Ω} {rng : Ω → Rng}

theorem Combination.memLp [IsProbabilityMeasure ℙ] (h : FairDraws ℙ rng) {X : Ω → ℝ} (hX : Combination rng X) : MemLp X 2 ℙ := by
  induction hX with
  | zero => exact memLp_const 0
  | draw j p μ C hC a => exact (h.finite j p μ C hC a).sub (memLp_const (μ a))
  | add _ _ h1 h2 => exact h1.add h2
  | smul s _ h1 => exact h1.const_mul s

theorem Combination.mean_zero [IsProbabilityMeasure ℙ] (h : FairDraws ℙ rng) {X : Ω → ℝ} (hX : Combination rng X) : ∫ ω, X ω ∂ℙ = 0 := by
  induction hX with
  | zero => simp
  | draw j p μ C hC a =>
    rw [integral_sub ((h.finite j p μ C hC a).integrable (by norm_num)) (integrable_const _), h.mean j p μ C hC]
    simp
  | add hX hY h1 h2 =>
    rw [integral_add ((hX.memLp h).integrable (by norm_num)) ((hY.memLp h).integrable (by norm_num)), h1, h2, add_zero]
  | smul s _ h1 => rw [integral_const_mul, h1, mul_zero]

/-- Uncorrelated vectors of combinations of normal draws are independent. -/
theorem indep_of_combinations [IsProbabilityMeasure ℙ] (h : NormalDraws ℙ rng) {ι κ : Type} [Fintype ι] [Fintype κ] {X : ι → Ω → ℝ} {Y : κ → Ω → ℝ}
    (hX : ∀ i, Combination rng (X i)) (hY : ∀ j, Combination rng (Y j)) (hc : ∀ i j, ∫ ω, X i ω * Y j ω ∂ℙ = 0) :
    ProbabilityTheory.IndepFun (fun ω i => X i ω) (fun ω j => Y j ω) ℙ := by
  classical
  have hXl := fun i => (hX i).memLp h.toFairDraws
  have hYl := fun j => (hY j).memLp h.toFairDraws
  have hXm : ∀ i, AEMeasurable (X i) ℙ := fun i => (hXl i).1.aemeasurable
  have hYm : ∀ j, AEMeasurable (Y j) ℙ := fun j => (hYl j).1.aemeasurable
  have hm : AEMeasurable (fun ω => ((fun i => X i ω : ι → ℝ), (fun j => Y j ω : κ → ℝ))) ℙ :=
    (aemeasurable_pi_lambda _ hXm).prodMk (aemeasurable_pi_lambda _ hYm)
  refine ProbabilityTheory.HasGaussianLaw.indepFun_of_covariance_eval ⟨ProbabilityTheory.isGaussian_of_map_eq_gaussianReal fun T => ?_⟩ fun i j => ?_
  · have hcomb : Combination rng fun ω => T ((fun i => X i ω), (fun j => Y j ω)) := by
      have e : ∀ ω, T ((fun i => X i ω), (fun j => Y j ω)) =
          ∑ i, T (Pi.single i 1, 0) * X i ω + ∑ j, T (0, Pi.single j 1) * Y j ω := fun ω => by
        have e1 : ((fun i => X i ω, fun j => Y j ω) : (ι → ℝ) × (κ → ℝ)) =
            ∑ i, X i ω • ((Pi.single i 1, 0) : (ι → ℝ) × (κ → ℝ)) + ∑ j, Y j ω • ((0, Pi.single j 1) : (ι → ℝ) × (κ → ℝ)) := by
          ext a
          · simp [Prod.fst_sum, Finset.sum_apply, Pi.single_apply]
          · simp [Prod.snd_sum, Finset.sum_apply, Pi.single_apply]
        rw [e1, map_add, map_sum, map_sum]
        simp only [map_smul, smul_eq_mul, mul_comm]
      simp only [e]
      exact (Combination.sum Finset.univ fun i _ => (hX i).smul _).add (Combination.sum Finset.univ fun j _ => (hY j).smul _)
    obtain ⟨v, hv⟩ := h.normal _ hcomb
    refine ⟨0, v, ?_⟩
    rw [AEMeasurable.map_map_of_aemeasurable (by fun_prop) hm]
    exact hv
  · rw [ProbabilityTheory.covariance_eq_sub (hXl i) (hYl j)]
    have := hc i j
    simp only [Pi.mul_apply]
    rw [this, (hX i).mean_zero h.toFairDraws, zero_mul, sub_zero]

section Path

variable {L : StateSpace n k} {x : ℕ → Ω → Fin n → ℝ} {q : ℕ → Ω → Fin n → ℝ} {r : ℕ → Ω → Fin k → ℝ} {y : Ω → ℕ → Fin k → ℝ}

theorem StateSpace.Path.comb_state (h : L.Path ℙ x q r y) (hx : Combinations rng fun ω => x 0 ω - L.m0) (hq : ∀ i, Combinations rng (q i)) :
    ∀ i, ∃ c, Combinations rng fun ω => x i ω - c
  | 0 => ⟨_, hx⟩
  | i + 1 => by
    obtain ⟨c, hc⟩ := h.comb_state hx hq i
    refine ⟨L.A i *ᵥ c + L.b i, ?_⟩
    have := (hc.mulVec (L.A i)).add (hq i)
    convert this using 2 with ω
    rw [h.state, mulVec_sub]
    abel

theorem StateSpace.Path.comb_meas (h : L.Path ℙ x q r y) (hx : Combinations rng fun ω => x 0 ω - L.m0) (hq : ∀ i, Combinations rng (q i))
    (hr : ∀ i, Combinations rng (r i)) (i : ℕ) : ∃ c, Combinations rng fun ω => y ω i - c := by
  obtain ⟨c, hc⟩ := h.comb_state hx hq (i + 1)
  refine ⟨L.H i *ᵥ c + L.c i, ?_⟩
  have := (hc.mulVec (L.H i)).add (hr i)
  convert this using 2 with ω
  rw [h.meas, mulVec_sub]
  abel

/-- The error of the smoother (of the filter for `d = 0`) at time `i` is independent of the measurements it has used. -/
theorem StateSpace.Path.indep [IsProbabilityMeasure ℙ] (hd : NormalDraws ℙ rng) (hL : L.Good) (h : L.Path ℙ x q r y)
    (hx : Combinations rng fun ω => x 0 ω - L.m0) (hq : ∀ i, Combinations rng (q i)) (hr : ∀ i, Combinations rng (r i)) (d i : ℕ) :
    ProbabilityTheory.IndepFun (L.serr x y i d) (fun ω (j : Fin (i + d)) => y ω j) ℙ := by
  choose c hc using h.comb_meas hx hq hr
  have hs := h.comb_serr hx hq hr d i
  have key := indep_of_combinations hd (X := fun a ω => L.serr x y i d ω a) (Y := fun (p : Fin (i + d) × Fin k) ω => y ω p.1 p.2 - c p.1 p.2) hs
    (fun p => hc p.1 p.2) fun a p => by
      have h1 : ∫ ω, L.serr x y i d ω a * y ω p.1 p.2 ∂ℙ = 0 := congrFun (congrFun (h.serr_meas hL d i p.1 p.1.isLt) a) p.2
      have h2 : ∫ ω, L.serr x y i d ω a ∂ℙ = 0 := (hs a).mean_zero hd.toFairDraws
      have hl := (hs a).memLp hd.toFairDraws
      have e : ∀ ω, L.serr x y i d ω a * (y ω p.1 p.2 - c p.1 p.2) = L.serr x y i d ω a * y ω p.1 p.2 - c p.1 p.2 * L.serr x y i d ω a := fun ω => by ring
      simp only [e]
      rw [integral_sub ((h.sq_serr d i).mul (h.sq_meas p.1) a p.2) ((hl.integrable (by norm_num)).const_mul _), h1, integral_const_mul, h2]
      simp
  exact key.comp (φ := fun e => e) (ψ := fun (z : Fin (i + d) × Fin k → ℝ) j b => z (j, b) + c j b) measurable_id
    (measurable_pi_lambda _ fun j => measurable_pi_lambda _ fun b => (measurable_pi_apply (j, b)).add_const _) |>.congr
      (.of_forall fun _ => rfl) (.of_forall fun ω => by funext j b; simp)

end Path

end Verif
