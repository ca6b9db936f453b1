import Verif.Spec.Curvature
import Mathlib.Analysis.Calculus.Deriv.MeanValue

/-! Remainders of functions of bounded curvature, and their moments. -/

namespace Verif

open Matrix MeasureTheory ProbabilityTheory Set

/-- A function that starts at or above zero and has a nonnegative derivative stays there. -/
theorem stays_nonneg {u u' : ℝ → ℝ} {a : ℝ} (h0 : 0 ≤ u 0) (hd : ∀ e ∈ Icc 0 a, HasDerivAt u (u' e) e)
    (hp : ∀ e ∈ Icc 0 a, 0 ≤ u' e) : ∀ e ∈ Icc 0 a, 0 ≤ u e := by
  intro e he
  have hm : MonotoneOn u (Icc 0 a) := by
    refine monotoneOn_of_deriv_nonneg (convex_Icc 0 a) (fun x hx => (hd x hx).continuousAt.continuousWithinAt)
      (fun x hx => ((hd x (interior_subset hx)).differentiableAt).differentiableWithinAt) fun x hx => ?_
    rw [(hd x (interior_subset hx)).deriv]
    exact hp x (interior_subset hx)
  exact h0.trans (hm ⟨le_rfl, he.1.trans he.2⟩ he he.1)

variable {n k : ℕ} {F : (Fin n → ℝ) → Fin k → ℝ} {F' : (Fin n → ℝ) → (Fin n → ℝ) →L[ℝ] (Fin k → ℝ)} {K : Fin k → ℝ}

theorem CurvedAtMost.continuous (h : CurvedAtMost F F' K) : Continuous F :=
  continuous_iff_continuousAt.2 fun x => (h.deriv x).continuousAt

/-- What the linearisation misses. -/
theorem CurvedAtMost.remainder (h : CurvedAtMost F F' K) (x d : Fin n → ℝ) (i : Fin k) :
    |F (x + d) i - F x i - F' x d i| ≤ K i / 2 * ∑ j, d j ^ 2 := by
  set q := ∑ j, d j ^ 2 with hq
  have hD : ∀ t : ℝ, HasDerivAt (fun t : ℝ => F (x + t • d) i) (F' (x + t • d) d i) t := fun t => by
    have hl : HasDerivAt (fun t : ℝ => x + t • d) d t := by
      simpa using ((hasDerivAt_id t).smul_const d).const_add x
    exact (hasDerivAt_pi.1 ((h.deriv (x + t • d)).comp_hasDerivAt t hl)) i
  have hs : ∀ t ∈ Icc (0 : ℝ) 1, |F' (x + t • d) d i - F' x d i| ≤ K i * q * t := fun t ht => by
    rcases eq_or_lt_of_le ht.1 with rfl | hpos
    · simp
    have := h.slope x (t • d) i
    simp only [map_smul, Pi.smul_apply, smul_eq_mul, mul_pow, ← Finset.mul_sum] at this
    rw [← mul_sub, abs_mul, abs_of_pos hpos, ← hq] at this
    have e : K i * (t ^ 2 * q) = t * (K i * q * t) := by ring
    rw [e] at this
    exact le_of_mul_le_mul_left this hpos
  have up := stays_nonneg (a := 1) (u := fun t => K i * q / 2 * t ^ 2 - (F (x + t • d) i - F x i - t * F' x d i))
    (u' := fun t => K i * q * t - (F' (x + t • d) d i - F' x d i)) (by simp) (fun t _ => by
      have := ((hasDerivAt_pow 2 t).const_mul (K i * q / 2)).sub
        (((hD t).sub_const (F x i)).sub ((hasDerivAt_id t).mul_const (F' x d i)))
      refine HasDerivAt.congr_deriv this ?_
      norm_num
      ring) (fun t ht => by linarith [(abs_le.1 (hs t ht)).2]) 1 ⟨zero_le_one, le_rfl⟩
  have lo := stays_nonneg (a := 1) (u := fun t => K i * q / 2 * t ^ 2 + (F (x + t • d) i - F x i - t * F' x d i))
    (u' := fun t => K i * q * t + (F' (x + t • d) d i - F' x d i)) (by simp) (fun t _ => by
      have := ((hasDerivAt_pow 2 t).const_mul (K i * q / 2)).add
        (((hD t).sub_const (F x i)).sub ((hasDerivAt_id t).mul_const (F' x d i)))
      refine HasDerivAt.congr_deriv this ?_
      norm_num
      ring) (fun t ht => by linarith [(abs_le.1 (hs t ht)).1]) 1 ⟨zero_le_one, le_rfl⟩
  simp only [one_smul, one_mul, one_pow, mul_one] at up lo
  exact abs_le.2 ⟨by linarith, by linarith⟩

theorem CurvedAtMost.remainder' (h : CurvedAtMost F F' K) (μ x : Fin n → ℝ) (i : Fin k) :
    |F x i - F μ i - F' μ (x - μ) i| ≤ K i / 2 * ∑ j, (x j - μ j) ^ 2 := by
  simpa using h.remainder μ (x - μ) i

/-! ### Random vectors -/

section

variable {Ω : Type*} [MeasurableSpace Ω] {p : Measure Ω} [IsProbabilityMeasure p]

/-- The Cauchy–Schwarz inequality for covariances. -/
theorem abs_cov_le {f g : Ω → ℝ} (hf : MemLp f 2 p) (hg : MemLp g 2 p) :
    |cov[f, g; p]| ≤ Real.sqrt Var[f; p] * Real.sqrt Var[g; p] := by
  have key : ∀ t : ℝ, 0 ≤ Var[g; p] * (t * t) + (-2 * cov[f, g; p]) * t + Var[f; p] := fun t => by
    have h := variance_nonneg (f - t • g) p
    rw [← covariance_self (hf.sub (hg.const_smul t)).aestronglyMeasurable.aemeasurable,
      covariance_sub_sub hf (hg.const_smul t) hf (hg.const_smul t), covariance_smul_left, covariance_smul_right,
      covariance_smul_left, covariance_smul_right, covariance_comm g f, covariance_self hf.aestronglyMeasurable.aemeasurable,
      covariance_self hg.aestronglyMeasurable.aemeasurable] at h
    linarith
  have hd := discrim_le_zero key
  rw [discrim] at hd
  rw [← Real.sqrt_mul (variance_nonneg f p)]
  refine Real.abs_le_sqrt ?_
  nlinarith

theorem sqrt_var_le {r q : Ω → ℝ} (hr : MemLp r 2 p) (hq : MemLp q 2 p) {c : ℝ} (hc : 0 ≤ c) (h : ∀ ω, |r ω| ≤ c * q ω) :
    Real.sqrt Var[r; p] ≤ c * Real.sqrt (p[fun ω => q ω ^ 2]) := by
  have h1 : Var[r; p] ≤ c ^ 2 * p[fun ω => q ω ^ 2] := by
    refine (variance_le_expectation_sq hr.aestronglyMeasurable).trans ?_
    rw [← integral_const_mul]
    refine integral_mono hr.integrable_sq (hq.integrable_sq.const_mul _) fun ω => ?_
    have := sq_le_sq' (by linarith [abs_le.1 (h ω)]) (abs_le.1 (h ω)).2
    simpa [mul_pow] using this
  calc _ ≤ Real.sqrt (c ^ 2 * p[fun ω => q ω ^ 2]) := Real.sqrt_le_sqrt h1
    _ = _ := by rw [Real.sqrt_mul (sq_nonneg c), Real.sqrt_sq hc]

variable {X : Ω → Fin n → ℝ} {μ : Fin n → ℝ} {C : Matrix (Fin n) (Fin n) ℝ}

namespace HasMeanCov

variable (hX : HasMeanCov p X μ C)
include hX

theorem centred (j : Fin n) : MemLp (fun ω => X ω j - μ j) 2 p := (hX.sq j).sub (memLp_const _)

theorem mean_centred (j : Fin n) : p[fun ω => X ω j - μ j] = 0 := by
  rw [integral_sub ((hX.sq j).integrable (by norm_num)) (integrable_const _), hX.mean]
  simp

theorem cov_centred (i j : Fin n) : cov[fun ω => X ω i - μ i, fun ω => X ω j - μ j; p] = C i j := by
  rw [covariance_sub_const_left ((hX.sq i).integrable (by norm_num)),
    covariance_sub_const_right ((hX.sq j).integrable (by norm_num)), hX.cov]

omit [IsProbabilityMeasure p] in
theorem aemeasurable : AEMeasurable X p :=
  aemeasurable_pi_lambda _ fun j => (hX.sq j).aestronglyMeasurable.aemeasurable

theorem distSq_integrable : Integrable (distSq X μ) p :=
  integrable_finsetSum _ fun j _ => (hX.centred j).integrable_sq

theorem mean_distSq : p[distSq X μ] = C.trace := by
  unfold distSq
  rw [integral_finsetSum _ fun j _ => (hX.centred j).integrable_sq, trace]
  refine Finset.sum_congr rfl fun j _ => ?_
  rw [diag_apply, ← hX.cov j j, covariance_self (hX.sq j).aestronglyMeasurable.aemeasurable,
    variance_eq_integral (hX.sq j).aestronglyMeasurable.aemeasurable, hX.mean]

end HasMeanCov

/-- What a linear map does to a displacement, in coordinates. -/
theorem lin_coords (L : (Fin n → ℝ) →L[ℝ] (Fin k → ℝ)) (d : Fin n → ℝ) (i : Fin k) : L d i = ∑ j, jacMat L i j * d j := by
  have e : d = ∑ j, d j • (Pi.single j 1 : Fin n → ℝ) := by
    ext i; simp [Finset.sum_apply, Pi.single_apply]
  conv_lhs => rw [e]
  rw [map_sum, Finset.sum_apply]
  exact Finset.sum_congr rfl fun j _ => by
    rw [map_smul, Pi.smul_apply, smul_eq_mul, mul_comm]
    rfl

namespace HasMeanCov

variable (hX : HasMeanCov p X μ C) (L : (Fin n → ℝ) →L[ℝ] (Fin k → ℝ))

omit [MeasurableSpace Ω] [IsProbabilityMeasure p] in
private theorem lin_fun (i : Fin k) : (fun ω => L (X ω - μ) i) = fun ω => ∑ j, jacMat L i j * (X ω j - μ j) := by
  funext ω
  exact lin_coords L (X ω - μ) i

include hX

theorem lin_memLp (i : Fin k) : MemLp (fun ω => L (X ω - μ) i) 2 p := by
  rw [lin_fun L i]
  exact memLp_finsetSum _ fun j _ => (hX.centred j).const_mul _

theorem mean_lin (i : Fin k) : p[fun ω => L (X ω - μ) i] = 0 := by
  rw [lin_fun L i, integral_finsetSum _ fun j _ => ((hX.centred j).integrable (by norm_num)).const_mul _]
  simp only [integral_const_mul]
  exact Finset.sum_eq_zero fun j _ => by rw [hX.mean_centred, mul_zero]

theorem cov_coord_lin (j : Fin n) (i : Fin k) : cov[fun ω => X ω j - μ j, fun ω => L (X ω - μ) i; p] = (C * (jacMat L)ᵀ) j i := by
  rw [lin_fun L i, covariance_fun_sum_right (fun l => (hX.centred l).const_mul _) (hX.centred j), Matrix.mul_apply]
  refine Finset.sum_congr rfl fun l _ => ?_
  rw [covariance_const_mul_right, hX.cov_centred, transpose_apply, mul_comm]

theorem cov_lin (i j : Fin k) :
    cov[fun ω => L (X ω - μ) i, fun ω => L (X ω - μ) j; p] = (jacMat L * C * (jacMat L)ᵀ) i j := by
  rw [lin_fun L i, covariance_fun_sum_left (fun l => (hX.centred l).const_mul _) (hX.lin_memLp L j), Matrix.mul_assoc,
    Matrix.mul_apply]
  refine Finset.sum_congr rfl fun l _ => ?_
  rw [covariance_const_mul_left, hX.cov_coord_lin]

theorem var_lin (i : Fin k) : Var[fun ω => L (X ω - μ) i; p] = (jacMat L * C * (jacMat L)ᵀ) i i := by
  rw [← hX.cov_lin, covariance_self (hX.lin_memLp L i).aestronglyMeasurable.aemeasurable]

end HasMeanCov

/-! ### The remainder of a random vector -/

section

variable (hF : CurvedAtMost F F' K) (hX : HasMeanCov p X μ C)
include hF hX

theorem rem_measurable (i : Fin k) : AEStronglyMeasurable (fun ω => F (X ω) i - F μ i - F' μ (X ω - μ) i) p :=
  ((((continuous_apply i).comp hF.continuous).measurable.comp_aemeasurable hX.aemeasurable).sub_const _).aestronglyMeasurable.sub
    (hX.lin_memLp (F' μ) i).aestronglyMeasurable

theorem rem_integrable (i : Fin k) : Integrable (fun ω => F (X ω) i - F μ i - F' μ (X ω - μ) i) p :=
  (hX.distSq_integrable.const_mul (K i / 2)).mono' (rem_measurable hF hX i)
    (Filter.Eventually.of_forall fun ω => hF.remainder' μ (X ω) i)

theorem value_integrable (i : Fin k) : Integrable (fun ω => F (X ω) i) p := by
  have := ((rem_integrable hF hX i).add ((hX.lin_memLp (F' μ) i).integrable (by norm_num))).add (integrable_const (F μ i))
  refine this.congr (Filter.Eventually.of_forall fun ω => ?_)
  simp only [Pi.add_apply]
  ring

/-- The expected value of the function, up to half the bound on the curvature times the total variance. -/
theorem mean_error (i : Fin k) : |p[fun ω => F (X ω) i] - F μ i| ≤ K i / 2 * C.trace := by
  have e : p[fun ω => F (X ω) i] - F μ i = p[fun ω => F (X ω) i - F μ i - F' μ (X ω - μ) i] := by
    have h1 := integral_sub ((value_integrable hF hX i).sub (integrable_const (F μ i)))
      ((hX.lin_memLp (F' μ) i).integrable (by norm_num))
    have h2 := integral_sub (value_integrable hF hX i) (integrable_const (F μ i))
    simp only [Pi.sub_apply] at h1
    rw [h1, h2, hX.mean_lin]
    simp
  rw [e, ← hX.mean_distSq, ← integral_const_mul]
  refine (abs_integral_le_integral_abs).trans (integral_mono (rem_integrable hF hX i).abs (hX.distSq_integrable.const_mul _) ?_)
  exact fun ω => hF.remainder' μ (X ω) i

variable (h4 : MemLp (distSq X μ) 2 p)
include h4

theorem rem_memLp (i : Fin k) : MemLp (fun ω => F (X ω) i - F μ i - F' μ (X ω - μ) i) 2 p :=
  (h4.const_mul (K i / 2)).mono' (rem_measurable hF hX i) (Filter.Eventually.of_forall fun ω => hF.remainder' μ (X ω) i)

theorem value_memLp (i : Fin k) : MemLp (fun ω => F (X ω) i) 2 p := by
  have := ((rem_memLp hF hX h4 i).add (hX.lin_memLp (F' μ) i)).add (memLp_const (F μ i))
  refine this.ae_eq (Filter.Eventually.of_forall fun ω => ?_)
  simp only [Pi.add_apply]
  ring

theorem rem_sd (i : Fin k) (hK : 0 ≤ K i) :
    Real.sqrt Var[fun ω => F (X ω) i - F μ i - F' μ (X ω - μ) i; p] ≤ K i / 2 * Real.sqrt (p[fun ω => distSq X μ ω ^ 2]) :=
  sqrt_var_le (rem_memLp hF hX h4 i) h4 (by linarith) fun ω => hF.remainder' μ (X ω) i

/-- The covariance of argument and value. -/
theorem cross_error (j : Fin n) (i : Fin k) (hK : 0 ≤ K i) :
    |cov[fun ω => X ω j, fun ω => F (X ω) i; p] - (C * (jacMat (F' μ))ᵀ) j i| ≤
      Real.sqrt (C j j) * (K i / 2 * Real.sqrt (p[fun ω => distSq X μ ω ^ 2])) := by
  have e : (fun ω => F (X ω) i) = fun ω => F μ i + ((fun ω => F' μ (X ω - μ) i) + fun ω => F (X ω) i - F μ i - F' μ (X ω - μ) i) ω := by
    funext ω; simp only [Pi.add_apply]; ring
  have hl := hX.lin_memLp (F' μ) i
  have hr := rem_memLp hF hX h4 i
  rw [e, covariance_const_add_right ((hl.add hr).integrable (by norm_num)), covariance_add_right (hX.sq j) hl hr,
    ← hX.cov_coord_lin (F' μ) j i, covariance_sub_const_left ((hX.sq j).integrable (by norm_num)), add_sub_cancel_left]
  refine (abs_cov_le (hX.sq j) hr).trans ?_
  rw [← hX.cov j j, covariance_self (hX.sq j).aestronglyMeasurable.aemeasurable]
  gcongr
  exact rem_sd hF hX h4 i hK

/-- The covariance of the value. -/
theorem cov_error (hK : ∀ i, 0 ≤ K i) (i j : Fin k) :
    |cov[fun ω => F (X ω) i, fun ω => F (X ω) j; p] - (jacMat (F' μ) * C * (jacMat (F' μ))ᵀ) i j| ≤
      Real.sqrt ((jacMat (F' μ) * C * (jacMat (F' μ))ᵀ) i i) * (K j / 2 * Real.sqrt (p[fun ω => distSq X μ ω ^ 2])) +
      K i / 2 * Real.sqrt (p[fun ω => distSq X μ ω ^ 2]) * Real.sqrt ((jacMat (F' μ) * C * (jacMat (F' μ))ᵀ) j j) +
      K i / 2 * Real.sqrt (p[fun ω => distSq X μ ω ^ 2]) * (K j / 2 * Real.sqrt (p[fun ω => distSq X μ ω ^ 2])) := by
  have e : ∀ i, (fun ω => F (X ω) i) =
      fun ω => F μ i + ((fun ω => F' μ (X ω - μ) i) + fun ω => F (X ω) i - F μ i - F' μ (X ω - μ) i) ω := fun i => by
    funext ω; simp only [Pi.add_apply]; ring
  have hl := fun i => hX.lin_memLp (F' μ) i
  have hr := fun i => rem_memLp hF hX h4 i
  rw [e i, e j, covariance_const_add_left (((hl i).add (hr i)).integrable (by norm_num)),
    covariance_const_add_right (((hl j).add (hr j)).integrable (by norm_num)),
    covariance_add_left (hl i) (hr i) ((hl j).add (hr j)), covariance_add_right (hl i) (hl j) (hr j),
    covariance_add_right (hr i) (hl j) (hr j), hX.cov_lin]
  have c1 := abs_cov_le (hl i) (hr j)
  have c2 := abs_cov_le (hr i) (hl j)
  have c3 := abs_cov_le (hr i) (hr j)
  rw [hX.var_lin] at c1 c2
  have b := fun i => rem_sd hF hX h4 i (hK i)
  have d1 := c1.trans (mul_le_mul_of_nonneg_left (b j) (Real.sqrt_nonneg _))
  have d2 := c2.trans (mul_le_mul_of_nonneg_right (b i) (Real.sqrt_nonneg _))
  have d3 := c3.trans (mul_le_mul (b i) (b j) (Real.sqrt_nonneg _) ((Real.sqrt_nonneg _).trans (b i)))
  rw [show ∀ a b c d : ℝ, a + b + (c + d) - a = b + c + d from fun a b c d => by ring]
  exact (abs_add_three _ _ _).trans (add_le_add (add_le_add d1 d2) d3)

/-- The standard deviation of the value. -/
theorem sd_error (i : Fin k) (hK : 0 ≤ K i) :
    |Real.sqrt Var[fun ω => F (X ω) i; p] - Real.sqrt ((jacMat (F' μ) * C * (jacMat (F' μ))ᵀ) i i)| ≤
      K i / 2 * Real.sqrt (p[fun ω => distSq X μ ω ^ 2]) := by
  have hl := hX.lin_memLp (F' μ) i
  have hr := rem_memLp hF hX h4 i
  have hv := value_memLp hF hX h4 i
  have b := rem_sd hF hX h4 i hK
  -- the triangle inequality for standard deviations
  have tri : ∀ {f g : Ω → ℝ}, MemLp f 2 p → MemLp g 2 p →
      Real.sqrt Var[f + g; p] ≤ Real.sqrt Var[f; p] + Real.sqrt Var[g; p] := fun {f g} hf hg => by
    rw [Real.sqrt_le_left (by positivity), ← covariance_self (hf.add hg).aestronglyMeasurable.aemeasurable,
      covariance_add_left hf hg (hf.add hg), covariance_add_right hf hf hg, covariance_add_right hg hf hg,
      covariance_self hf.aestronglyMeasurable.aemeasurable, covariance_self hg.aestronglyMeasurable.aemeasurable,
      covariance_comm g f, add_sq, Real.sq_sqrt (variance_nonneg _ _), Real.sq_sqrt (variance_nonneg _ _)]
    linarith [(abs_le.1 (abs_cov_le hf hg)).2]
  have e1 : Var[fun ω => F (X ω) i; p] =
      Var[(fun ω => F' μ (X ω - μ) i) + fun ω => F (X ω) i - F μ i - F' μ (X ω - μ) i; p] := by
    rw [← variance_add_const (hl.add hr).aestronglyMeasurable (F μ i)]
    congr 1
    funext ω; simp only [Pi.add_apply]; ring
  have e2 : Var[fun ω => F' μ (X ω - μ) i; p] =
      Var[(fun ω => F (X ω) i) + -(fun ω => F (X ω) i - F μ i - F' μ (X ω - μ) i); p] := by
    rw [← variance_add_const hl.aestronglyMeasurable (F μ i)]
    congr 1
    funext ω; simp only [Pi.add_apply, Pi.neg_apply]; ring
  have t1 := tri hl hr
  have t2 := tri hv hr.neg
  rw [← e1] at t1
  rw [← e2, variance_neg] at t2
  rw [hX.var_lin] at t1 t2
  exact abs_le.2 ⟨by linarith, by linarith⟩

end

end

end Verif
