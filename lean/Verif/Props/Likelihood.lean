import Verif.Props.Metrics
import Verif.Lemmas.Normal
import Mathlib.Probability.Distributions.Gaussian.Real

/-!
# Negative log likelihood: C64
-/

namespace Verif

open Matrix MeasureTheory

variable {env : Env} {n : ℕ}

private theorem mvnCov_m (C : Matrix (Fin n) (Fin n) ℝ) : mvnCov n (.m C) = .ok C := dif_pos ⟨rfl, rfl⟩

private theorem mvnPoint_isPoint {a : Arr} {x : Fin n → ℝ} (h : IsPoint a x) : mvnPoint n a = .ok x := by
  rcases h with rfl | rfl
  · exact dif_pos rfl
  · exact dif_pos ⟨Nat.one_pos, rfl, rfl⟩

private theorem spread_eigenvalues {C : Matrix (Fin n) (Fin n) ℝ} (h : Spread C) (hC : C.IsHermitian) (i j : Fin n) :
    1e6 * 2⁻¹ ^ 52 * hC.eigenvalues j < hC.eigenvalues i := by
  have unit : ∀ k, ((hC.eigenvectorBasis k : EuclideanSpace ℝ (Fin n)) : Fin n → ℝ) ⬝ᵥ
      ((hC.eigenvectorBasis k : EuclideanSpace ℝ (Fin n)) : Fin n → ℝ) = 1 := fun k => by
    have := hC.eigenvectorBasis.orthonormal.1 k
    have h2 := EuclideanSpace.real_norm_sq_eq (hC.eigenvectorBasis k)
    rw [this] at h2
    simp only [dotProduct, ← sq]
    rw [← h2]; norm_num
  have val : ∀ k, ((hC.eigenvectorBasis k : EuclideanSpace ℝ (Fin n)) : Fin n → ℝ) ⬝ᵥ
      C *ᵥ ((hC.eigenvectorBasis k : EuclideanSpace ℝ (Fin n)) : Fin n → ℝ) = hC.eigenvalues k := fun k => by
    have := hC.mulVec_eigenvectorBasis k
    rw [this, dotProduct_smul, unit k]; simp
  have := h _ _ (unit i) (unit j)
  rwa [val, val] at this

/-- The density formula for positive definite covariances within the cutoff. -/
theorem mvnNegLog_posDef {C : Matrix (Fin n) (Fin n) ℝ} (hC : C.PosDef) (hS : Spread C) (b : Bool) (x μ : Fin n → ℝ) :
    mvnNegLog b x μ C = .ok ((n * Real.log (2 * Real.pi) + Real.log C.det + (x - μ) ⬝ᵥ C⁻¹ *ᵥ (x - μ)) / 2) := by
  have hl := lowerSym_of_symm (posDef_symm hC)
  have hC' : (lowerSym C).PosDef := by rwa [hl]
  have hS' : Spread (lowerSym C) := by rwa [hl]
  simp only [mvnNegLog]
  rw [if_pos, hl]
  intro i j
  rw [abs_of_pos (hC'.eigenvalues_pos j)]
  exact spread_eigenvalues hS' _ i j

/-- **C64.** The negative log likelihood of a point under a Gaussian with positive definite covariance. -/
theorem C64_formula {g : Gaussian} {μ x : Fin n → ℝ} {C : Matrix (Fin n) (Fin n) ℝ} (hg : HasMoments env g μ C) (hC : C.PosDef)
    (hS : Spread C) {a : Arr} (ha : IsPoint a x) :
    g.nll env a = .ok ((n * Real.log (2 * Real.pi) + Real.log C.det + (x - μ) ⬝ᵥ C⁻¹ *ᵥ (x - μ)) / 2) := by
  unfold Gaussian.nll
  rw [hg.meanA, ok_bind]
  simp only [mvnMean, ok_bind, hg.covA, mvnCov_m, mvnPoint_isPoint ha, mvnNegLog_posDef hC hS]

/-- **C64.** It is least exactly at the mean. -/
theorem C64_minimal_at_mean {g : Gaussian} {μ x : Fin n → ℝ} {C : Matrix (Fin n) (Fin n) ℝ} (hg : HasMoments env g μ C)
    (hC : C.PosDef) (hS : Spread C) {a b : Arr} (ha : IsPoint a x) (hb : IsPoint b μ) :
    ∃ l₀ l, g.nll env b = .ok l₀ ∧ g.nll env a = .ok l ∧ l₀ ≤ l ∧ (l = l₀ ↔ x = μ) := by
  refine ⟨_, _, C64_formula hg hC hS hb, C64_formula hg hC hS ha, ?_, ?_⟩
  · have := (posSemidef_iff_real.1 hC.inv.posSemidef).2 (x - μ)
    simp only [sub_self, zero_dotProduct]
    linarith
  · simp only [sub_self, zero_dotProduct]
    constructor
    · intro h
      by_contra hne
      have := (posDef_iff_real.1 hC.inv).2 (x - μ) (sub_ne_zero.2 hne)
      linarith
    · rintro rfl; simp

/-- **C64.** `exp (-nll)` is a probability density: it is positive and integrates to one. -/
theorem C64_density {g : Gaussian} {μ : Fin n → ℝ} {C : Matrix (Fin n) (Fin n) ℝ} (hg : HasMoments env g μ C) (hC : C.PosDef)
    (hS : Spread C) :
    ∃ l : (Fin n → ℝ) → ℝ, (∀ x, g.nll env (.v x) = .ok (l x)) ∧ ∫ x, Real.exp (-l x) = 1 := by
  refine ⟨_, fun x => C64_formula hg hC hS (.inl rfl), ?_⟩
  have hd : 0 < C.det := hC.det_pos
  have hpi : 0 < 2 * Real.pi := by positivity
  have hk : ∀ x : Fin n → ℝ,
      Real.exp (-((n * Real.log (2 * Real.pi) + Real.log C.det + (x - μ) ⬝ᵥ C⁻¹ *ᵥ (x - μ)) / 2)) =
        (Real.sqrt C.det * Real.sqrt (2 * Real.pi) ^ n)⁻¹ * Real.exp (-((x - μ) ⬝ᵥ C⁻¹ *ᵥ (x - μ)) / 2) := fun x => by
    rw [show -((n * Real.log (2 * Real.pi) + Real.log C.det + (x - μ) ⬝ᵥ C⁻¹ *ᵥ (x - μ)) / 2) =
      -(Real.log (Real.sqrt C.det) + n * Real.log (Real.sqrt (2 * Real.pi))) + -((x - μ) ⬝ᵥ C⁻¹ *ᵥ (x - μ)) / 2 by
        rw [Real.log_sqrt hd.le, Real.log_sqrt hpi.le]; ring]
    rw [Real.exp_add, Real.exp_neg, Real.exp_add, Real.exp_log (Real.sqrt_pos.2 hd), Real.exp_nat_mul,
      Real.exp_log (Real.sqrt_pos.2 hpi)]
  simp only [hk]
  rw [integral_const_mul, integral_sub_right_eq_self (fun x : Fin n → ℝ => Real.exp (-(x ⬝ᵥ C⁻¹ *ᵥ x) / 2)), integral_quad hC]
  refine inv_mul_cancel₀ ?_
  have := Real.sqrt_pos.2 hd
  have := Real.sqrt_pos.2 hpi
  positivity

/-- **C64.** For a scalar state it is the density of the normal distribution. -/
theorem C64_scalar (μ c x : ℝ) (hc : 0 < c) :
    ∃ l, (sG μ c).nll env (.v (v1 x)) = .ok l ∧ Real.exp (-l) = ProbabilityTheory.gaussianPDFReal μ ⟨c, hc.le⟩ x := by
  have hS : Spread (m1 c) := fun u w hu hw => by
    have e : ∀ u : Fin 1 → ℝ, u ⬝ᵥ u = 1 → u ⬝ᵥ m1 c *ᵥ u = c := fun u hu => by
      simp only [dotProduct, Fin.sum_univ_one, mulVec, m1_apply] at hu ⊢
      linear_combination c * hu
    rw [e u hu, e w hw]
    norm_num
    linarith
  refine ⟨_, C64_formula (sG_moments env μ c) (m1_posDef.2 hc) hS (.inl rfl), ?_⟩
  have hpi : 0 < 2 * Real.pi := by positivity
  rw [congrFun (ProbabilityTheory.gaussianPDFReal_def μ ⟨c, hc.le⟩) x]
  simp only [m1_det, m1_inv, v1_sub, m1_mulVec, dotProduct, Fin.sum_univ_one, v1_apply, Nat.cast_one, one_mul]
  rw [← Real.log_mul hpi.ne' hc.ne', show -((Real.log (2 * Real.pi * c) + (x - μ) * (c⁻¹ * (x - μ))) / 2) =
    -(Real.log (Real.sqrt (2 * Real.pi * c))) + -(x - μ) ^ 2 / (2 * c) by
      rw [Real.log_sqrt (by positivity)]; field_simp; ring]
  rw [Real.exp_add, Real.exp_neg, Real.exp_log (Real.sqrt_pos.2 (by positivity))]
  rfl

/-- **C64.** Numbers as mean, covariance and point. -/
theorem C64_number (μ c x : ℝ) (hc : 0 < c) :
    (Gaussian.ofMoment (.s μ) (.s c)).nll env (.s x) = .ok ((Real.log (2 * Real.pi) + Real.log c + (x - μ) ^ 2 / c) / 2) := by
  have hS : Spread (m1 c) := fun u w hu hw => by
    have e : ∀ u : Fin 1 → ℝ, u ⬝ᵥ u = 1 → u ⬝ᵥ m1 c *ᵥ u = c := fun u hu => by
      simp only [dotProduct, Fin.sum_univ_one, mulVec, m1_apply] at hu ⊢
      linear_combination c * hu
    rw [e u hu, e w hw]
    norm_num
    linarith
  have h : (Gaussian.ofMoment (.s μ) (.s c)).nll env (.s x) = mvnNegLog true (v1 x) (v1 μ) (m1 c) := rfl
  rw [h, mvnNegLog_posDef (m1_posDef.2 hc) hS]
  simp only [m1_det, m1_inv, v1_sub, m1_mulVec, dotProduct, Fin.sum_univ_one, v1_apply, Nat.cast_one, one_mul]
  congr 2
  field_simp

/-- **C64.** The list version is the average over the compared pairs. -/
theorem C64_average {states : List Gaussian} {truths : List Arr} {ls : List ℝ}
    (h : List.Forall₂ (fun p l => p.1.nll env p.2 = .ok l) (states.zip truths) ls) (hne : ls ≠ []) :
    Metrics.nll env states truths = .ok (ls.sum / ls.length) := by
  have hm : (states.zip truths).mapM (fun p => p.1.nll env p.2) = .ok ls := by
    clear hne
    generalize states.zip truths = l at h
    induction h with
    | nil => rfl
    | cons h1 _ ih => rw [List.mapM_cons, h1, ok_bind, ih]; rfl
  unfold Metrics.nll Metrics.mean
  rw [hm, ok_bind, if_neg hne]

private theorem spread_one (n : ℕ) : Spread (1 : Matrix (Fin n) (Fin n) ℝ) := fun u w hu hw => by
  rw [one_mulVec, one_mulVec, hu, hw]
  norm_num

-- the standard Gaussian in three dimensions
example : ∃ l : (Fin 3 → ℝ) → ℝ, (∀ x, (Gaussian.ofMoment (.v (n := 3) 0) (.m (r := 3) (c := 3) 1)).nll calmEnv (.v x) = .ok (l x)) ∧
    ∫ x, Real.exp (-l x) = 1 :=
  C64_density (hasMoments_ofMoment calmEnv 0 1) PosDef.one (spread_one 3)

-- numbers for everything
example : (Gaussian.ofMoment (.s 1) (.s 4)).nll calmEnv (.s 3) = .ok ((Real.log (2 * Real.pi) + Real.log 4 + 1) / 2) := by
  rw [C64_number 1 4 3 (by norm_num)]
  norm_num

-- C60: a state for which all six numbers exist
example : ∃ c, Metrics.componentwiseMetrics calmEnv [Gaussian.ofMoment (.v (n := 5) 0) (.m (r := 5) (c := 5) 1)]
    [.v (n := 5) fun i => (i : ℝ)] = .ok c := by
  have hp : ∀ {k : ℕ} (sel : Fin k → Fin 5) (inj : Function.Injective sel) (x : Fin k → ℝ),
      ∃ l, (part sel (Gaussian.ofMoment (.v (n := 5) 0) (.m (r := 5) (c := 5) 1), 0, 1)).nll calmEnv (.v x) = .ok l := by
    intro k sel inj x
    refine ⟨_, C64_formula (hasMoments_ofMoment calmEnv _ _) ?_ ?_ (.inl rfl)⟩
    · rw [submatrix_one _ inj]; exact PosDef.one
    · rw [submatrix_one _ inj]; exact spread_one k
  let st : List (Gaussian × (Fin 5 → ℝ) × Matrix (Fin 5) (Fin 5) ℝ) :=
    [(Gaussian.ofMoment (.v (n := 5) 0) (.m (r := 5) (c := 5) 1), 0, 1)]
  have hall : ∀ {k : ℕ} (sel : Fin k → Fin 5) (inj : Function.Injective sel) (x : Fin k → ℝ),
      (∃ a, Metrics.rmse calmEnv (st.map (part sel)) [.v x] = .ok a) ∧ ∃ a, Metrics.nll calmEnv (st.map (part sel)) [.v x] = .ok a := by
    intro k sel inj x
    obtain ⟨l, hl⟩ := hp sel inj x
    have hc : Compared calmEnv (st.map (part sel)) [.v x] [(fun i => (0 : Fin 5 → ℝ) (sel i), x)] :=
      List.Forall₂.cons ⟨⟨_, (hasMoments_ofMoment calmEnv _ _).meanA, .inl rfl⟩, .inl rfl⟩ .nil
    refine ⟨⟨_, (C58_rmse hc (by simp)).1⟩,
      _, C64_average (ls := [l]) (.cons hl .nil) (by simp)⟩
  obtain ⟨⟨a1, h1⟩, b1, k1⟩ := hall ![0, 2] (by decide) ![((0 : Fin 5) : ℕ), ((2 : Fin 5) : ℕ)]
  obtain ⟨⟨a2, h2⟩, b2, k2⟩ := hall ![1, 3] (by decide) ![((1 : Fin 5) : ℕ), ((3 : Fin 5) : ℕ)]
  obtain ⟨⟨a3, h3⟩, b3, k3⟩ := hall ![4] (by decide) ![((4 : Fin 5) : ℕ)]
  exact ⟨_, C60_defined (st := st) (by intro p hp; rw [List.mem_singleton.1 hp]; exact hasMoments_ofMoment calmEnv _ _)
    [fun i => (i : ℝ)] h1 k1 h2 k2 h3 k3⟩

end Verif
