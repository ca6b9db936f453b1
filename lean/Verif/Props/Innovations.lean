import Verif.Spec.Innovations
import Verif.Lemmas.Innovations
import Verif.Props.Calibrate

/-!
# Predicted measurements of the filter: C105
-/

namespace Verif

open Matrix MeasureTheory StateSpace

variable {Ω : Type*} [MeasurableSpace Ω] {ℙ : Measure Ω} {env : Env} {n k : ℕ}

/-- The predicted measurement in closed form. -/
theorem Describes.predicts {K : KFS} {u : Option ℝ} {tZero : ℝ} {prior : Gaussian} {L : StateSpace n k} (hL : L.Good)
    (hK : Describes env K u tZero prior L) {y : ℕ → Fin k → ℝ} {i : ℕ} {g : Gaussian} (hg : HasMoments env g (L.filt y i).1 (L.filt y i).2) :
    PredictsMeasurement K u (tZero + i * K.dt) g (L.zpred y i) (L.zcov i) := by
  obtain ⟨x, hx, hT⟩ := hK.transition i g _ _ hg (hL.filt i)
  have h1 := KFS.predict_of hT hx hK.Q
  obtain ⟨z, hz, hM⟩ := hK.measurement i _ _ _ (hasMoments_ofMoment env (L.A i *ᵥ (L.filt y i).1 + L.b i)
    (L.A i * (L.filt y i).2 * (L.A i)ᵀ + L.Q)) (hL.pred i)
  refine ⟨_, z, _, _, L.R, h1, hM, hz, hK.R, ?_⟩
  rw [zcov, pcov, fcov, filt_cov' L y 0]

/-- The filter's results together with the predicted measurements. -/
theorem Describes.steps {K : KFS} {u : Option ℝ} {tZero : ℝ} {prior : Option Gaussian} {L : StateSpace n k} (hL : L.Good)
    (hK : Describes env K u tZero (prior.getD K.initState) L) {ys : List Arr} {y : ℕ → Fin k → ℝ}
    (hy : ∀ i a, ys[i]? = some a → IsVec a.squeeze (y i)) :
    ∃ fs, K.kalmanFilter env ys prior tZero u = .ok fs ∧
      ∀ i < ys.length, ∃ prev, (prior.getD K.initState :: fs)[i]? = some prev ∧
        PredictsMeasurement K u (tZero + i * K.dt) prev (L.zpred y i) (L.zcov i) := by
  obtain ⟨fs, h1, -, h3⟩ := hK.filter hL hy
  refine ⟨fs, h1, fun i hi => ?_⟩
  cases i with
  | zero => exact ⟨_, rfl, hK.predicts hL hK.prior⟩
  | succ i =>
    obtain ⟨g, hg, hm⟩ := h3 i (by omega)
    exact ⟨g, by simpa using hg, hK.predicts hL hm⟩

/-- **C105.** On a linear Gaussian system the density of the whole measurement sequence is the product of the normal densities of the
measurements around the predicted ones, with the covariances from the measurement transform plus the measurement noise. -/
theorem C105_likelihood {K : KFS} {u : Option ℝ} {tZero : ℝ} {prior : Option Gaussian} {L : StateSpace n k} (hL : L.Good)
    (hK : Describes env K u tZero (prior.getD K.initState) L) {ys : List Arr} {y : ℕ → Fin k → ℝ}
    (hy : ∀ i a, ys[i]? = some a → IsVec a.squeeze (y i)) :
    ∃ (fs : List Gaussian) (z : ℕ → Fin k → ℝ) (S : ℕ → Matrix (Fin k) (Fin k) ℝ), K.kalmanFilter env ys prior tZero u = .ok fs ∧
      (∀ i < ys.length, (S i).PosDef ∧ ∃ prev, (prior.getD K.initState :: fs)[i]? = some prev ∧
        PredictsMeasurement K u (tZero + i * K.dt) prev (z i) (S i)) ∧
      L.evidence y ys.length = ENNReal.ofReal (∏ i ∈ Finset.range ys.length, normalPdf (z i) (S i) (y i)) := by
  obtain ⟨fs, h1, h2⟩ := hK.steps hL hy
  exact ⟨fs, _, _, h1, fun i hi => ⟨hL.zcov i, h2 i hi⟩, by rw [hL.evidence, ev_eq]⟩

/-- `exp(-nll)` is the normal density. -/
theorem exp_nll {g : Gaussian} {μ x : Fin n → ℝ} {C : Matrix (Fin n) (Fin n) ℝ} (hg : HasMoments env g μ C) (hC : C.PosDef) (hS : Spread C)
    {a : Arr} (ha : IsPoint a x) : ∃ l, g.nll env a = .ok l ∧ Real.exp (-l) = normalPdf μ C x := by
  refine ⟨_, C64_formula hg hC hS ha, ?_⟩
  have hd : 0 < C.det := hC.det_pos
  have hpi : 0 < 2 * Real.pi := by positivity
  rw [normalPdf, show -((n * Real.log (2 * Real.pi) + Real.log C.det + (x - μ) ⬝ᵥ C⁻¹ *ᵥ (x - μ)) / 2) =
    -(Real.log C.det / 2 + n * (Real.log (2 * Real.pi) / 2)) + -((x - μ) ⬝ᵥ C⁻¹ *ᵥ (x - μ)) / 2 by ring, Real.exp_add, Real.exp_neg,
    Real.exp_add, Real.exp_nat_mul, ← Real.log_sqrt hd.le, ← Real.log_sqrt hpi.le, Real.exp_log (Real.sqrt_pos.2 hd),
    Real.exp_log (Real.sqrt_pos.2 hpi)]

/-- **C105.** So minus the logarithm of the density of the whole measurement sequence is the sum of the values of `nll` that `Gaussian`
returns for the predicted measurements. -/
theorem C105_nll {K : KFS} {u : Option ℝ} {tZero : ℝ} {prior : Option Gaussian} {L : StateSpace n k} (hL : L.Good)
    (hK : Describes env K u tZero (prior.getD K.initState) L) {ys : List Arr} {y : ℕ → Fin k → ℝ}
    (hy : ∀ i a, ys[i]? = some a → IsVec a.squeeze (y i)) :
    ∃ (fs : List Gaussian) (z : ℕ → Fin k → ℝ) (S : ℕ → Matrix (Fin k) (Fin k) ℝ), K.kalmanFilter env ys prior tZero u = .ok fs ∧
      (∀ i < ys.length, (S i).PosDef ∧ ∃ prev, (prior.getD K.initState :: fs)[i]? = some prev ∧
        PredictsMeasurement K u (tZero + i * K.dt) prev (z i) (S i)) ∧
      ((∀ i < ys.length, Spread (S i)) → ∃ l : ℕ → ℝ,
        (∀ i < ys.length, (Gaussian.ofMoment (.v (z i)) (.m (S i))).nll env (.v (y i)) = .ok (l i)) ∧
        L.evidence y ys.length = ENNReal.ofReal (Real.exp (-∑ i ∈ Finset.range ys.length, l i))) := by
  obtain ⟨fs, z, S, h1, h2, h3⟩ := C105_likelihood hL hK hy
  refine ⟨fs, z, S, h1, h2, fun hS => ?_⟩
  have h4 : ∀ i, ∃ l, i < ys.length → (Gaussian.ofMoment (.v (z i)) (.m (S i))).nll env (.v (y i)) = .ok l ∧
      Real.exp (-l) = normalPdf (z i) (S i) (y i) := fun i => by
    by_cases hi : i < ys.length
    · obtain ⟨l, hl⟩ := exp_nll (env := env) (hasMoments_ofMoment _ (z i) (S i)) (h2 i hi).1 (hS i hi) (a := .v (y i)) (.inl rfl)
      exact ⟨l, fun _ => hl⟩
    · exact ⟨0, fun h => absurd h hi⟩
  choose l hl using h4
  refine ⟨l, fun i hi => (hl i hi).1, ?_⟩
  rw [h3, ← Finset.sum_neg_distrib, Real.exp_sum]
  congr 1
  exact Finset.prod_congr rfl fun i hi => ((hl i (Finset.mem_range.1 hi)).2).symm

/-- **C105.** A calibrated estimate: the expected normalised squared error is the number of components. -/
theorem C105_normalised {x m : Ω → Fin n → ℝ} {C : Matrix (Fin n) (Fin n) ℝ} (hC : C.PosDef) (h : Calibrated ℙ x m C) :
    ∫ ω, (x ω - m ω) ⬝ᵥ C⁻¹ *ᵥ (x ω - m ω) ∂ℙ = n := by
  have hq : ∀ ω, (x ω - m ω) ⬝ᵥ C⁻¹ *ᵥ (x ω - m ω) = ∑ a, ∑ b, C⁻¹ a b * ((x ω a - m ω a) * (x ω b - m ω b)) := fun ω => by
    simp only [dotProduct, mulVec, Pi.sub_apply, Finset.mul_sum]
    exact Finset.sum_congr rfl fun a _ => Finset.sum_congr rfl fun b _ => by ring
  have hi : ∀ a b, Integrable (fun ω => C⁻¹ a b * ((x ω a - m ω a) * (x ω b - m ω b))) ℙ := fun a b =>
    (MemLp.integrable_mul (h.finite a) (h.finite b)).const_mul _
  simp only [hq]
  rw [integral_finsetSum _ fun a _ => integrable_finsetSum _ fun b _ => hi a b]
  have : ∀ a, ∫ ω, ∑ b, C⁻¹ a b * ((x ω a - m ω a) * (x ω b - m ω b)) ∂ℙ = (C⁻¹ * C) a a := fun a => by
    rw [integral_finsetSum _ fun b _ => hi a b, Matrix.mul_apply]
    refine Finset.sum_congr rfl fun b _ => ?_
    rw [integral_const_mul, h.cov a b]
    have := congrFun (congrFun (posDef_symm hC) b) a
    rw [transpose_apply] at this
    rw [this]
  simp only [this, posDef_inv_mul hC, Matrix.one_apply_eq]
  simp

section Runs

variable [IsProbabilityMeasure ℙ] {rng : Ω → Rng} {row : Bool} {sys : Sys} {T : Transform} {Tm : Option Transform} {L : StateSpace n k}
  {A : ℝ → Matrix (Fin n) (Fin n) ℝ} {b : ℝ → Fin n → ℝ} {H : Matrix (Fin k) (Fin n) ℝ} {c : Fin k → ℝ}

/-- **C105.** Simulated data of a linear system, filtered with the filter built from the same system: the differences between measurements
and predicted measurements have mean zero and the predicted covariance, and those of different times are uncorrelated, whatever the
distribution of the draws. -/
theorem C105_innovations (hfair : FairDraws ℙ rng) (hL : L.Good) (hK : Describes env (KFS.init T sys Tm) none 0 sys.initState L)
    (hA : ∀ i : ℕ, L.A i = A (i * sys.dt)) (hb : ∀ i : ℕ, L.b i = b (i * sys.dt)) (hH : ∀ i, L.H i = H) (hc : ∀ i, L.c i = c)
    (htr : ∀ t, PointMap row Set.univ (fun x => sys.transition x (some t) none) fun x => A t *ᵥ x + b t)
    (hme : PointMap row Set.univ (fun x => sys.measurement x none none) fun x => H *ᵥ x + c) (N : ℕ) :
    ∃ (data : Ω → List (Arr × Arr)) (fs : Ω → List Gaussian) (y z : Ω → ℕ → Fin k → ℝ) (S : ℕ → Matrix (Fin k) (Fin k) ℝ),
      (∀ ω, simData env (rng ω) n k sys N = .ok (data ω) ∧
        (KFS.init T sys Tm).kalmanFilter env ((data ω).map Prod.snd) none 0 none = .ok (fs ω) ∧ (data ω).length = N ∧
        ∀ i < N, (∃ p, (data ω)[i]? = some p ∧ IsPoint p.2 (y ω i)) ∧ ∃ prev, (sys.initState :: fs ω)[i]? = some prev ∧
          PredictsMeasurement (KFS.init T sys Tm) none (i * sys.dt) prev (z ω i) (S i)) ∧
      (∀ i < N, (S i).PosDef ∧ Calibrated ℙ (fun ω => y ω i) (fun ω => z ω i) (S i)) ∧ Uncorrelated ℙ N y z := by
  have hpath := hfair.path hL.P0.posSemidef hL.Q.posSemidef hL.R.posSemidef hA hb hH hc
  obtain ⟨data, fs, hrep⟩ := filter_reports (rng := rng) hL hK htr hme N
  refine ⟨data, fs, sensed rng L A b H c sys.dt, fun ω => L.zpred (sensed rng L A b H c sys.dt ω), L.zcov, fun ω => ?_, fun i hi => ⟨hL.zcov i, ?_⟩, ?_⟩
  · obtain ⟨h1, h2, h3⟩ := hrep ω
    refine ⟨h1, h2, h3.data_length, fun i hi => ⟨?_, ?_⟩⟩
    · obtain ⟨p, hp, -, hp'⟩ := h3.data i hi
      exact ⟨p, hp, hp'⟩
    · have hd : (KFS.init T sys Tm).dt = sys.dt := rfl
      cases i with
      | zero =>
        refine ⟨_, rfl, ?_⟩
        have := hK.predicts hL (y := sensed rng L A b H c sys.dt ω) (i := 0) hK.prior
        rwa [zero_add, hd] at this
      | succ i =>
        obtain ⟨g, hg, hm⟩ := h3.result i (by omega)
        rw [L.filt_cov' 0 (sensed rng L A b H c sys.dt ω)] at hm
        refine ⟨g, by simpa using hg, ?_⟩
        have := hK.predicts hL hm
        rwa [zero_add, hd] at this
  · exact calibrated_of (hpath.sq_innov i) (hpath.mean_innov i) (hpath.cov_innov hL i)
  · intro i _ j _ hij a b'
    exact congrFun (congrFun (hpath.innov_ne hL hij) a) b'

end Runs

/-- Variances of numbers always satisfy the condition. -/
theorem spread_one {S : Matrix (Fin 1) (Fin 1) ℝ} (hS : S.PosDef) : Spread S := fun u w hu hw => by
  have e : ∀ u : Fin 1 → ℝ, u ⬝ᵥ u = 1 → u ⬝ᵥ S *ᵥ u = S 0 0 := fun u hu => by
    simp only [dotProduct, Fin.sum_univ_one, mulVec] at hu ⊢
    linear_combination S 0 0 * hu
  have h := hS.diag_pos (i := 0)
  rw [e u hu, e w hw]
  norm_num
  linarith

/-- Three measurements of the position in a constant velocity model: the density of the measurements from three values of `nll`. -/
example : ∃ (fs : List Gaussian) (z : ℕ → Fin 1 → ℝ) (S : ℕ → Matrix (Fin 1) (Fin 1) ℝ) (l : ℕ → ℝ),
    (demoKFS (taylorTransform calmEnv exactJac)).kalmanFilter calmEnv [.s 4, .s 2, .s 7] none 0 none = .ok fs ∧
    (∀ i : ℕ, i < 3 → ∃ prev, ((demoKFS (taylorTransform calmEnv exactJac)).initState :: fs)[i]? = some prev ∧
      PredictsMeasurement (demoKFS (taylorTransform calmEnv exactJac)) none (0 + i * (demoKFS (taylorTransform calmEnv exactJac)).dt) prev (z i) (S i)) ∧
    (∀ i < 3, (Gaussian.ofMoment (.v (z i)) (.m (S i))).nll calmEnv (.v fun _ : Fin 1 => if i = 0 then 4 else if i = 1 then 2 else 7) = .ok (l i)) ∧
    demoSpace.evidence (fun i _ => if i = 0 then 4 else if i = 1 then 2 else 7) 3 = ENNReal.ofReal (Real.exp (-(l 0 + l 1 + l 2))) := by
  obtain ⟨fs, z, S, h1, h2, h3⟩ := C105_nll (env := calmEnv) (K := demoKFS (taylorTransform calmEnv exactJac)) (u := none) (tZero := 0)
    (prior := none) demoSpace_good
    ⟨fun _ => C20_taylor_exact calmEnv exactJac_correct (.inl (affineFunc_vec _ _)),
      fun _ => C20_taylor_exact calmEnv exactJac_correct (.inl (affineFunc_vec _ _)), rfl, rfl, hasMoments_ofMoment _ _ _⟩
    (ys := [.s 4, .s 2, .s 7]) (y := fun i _ => if i = 0 then 4 else if i = 1 then 2 else 7)
    (fun i a ha => by
      rcases i with _ | _ | _ | i
      · obtain rfl : Arr.s 4 = a := by simpa using ha
        exact .inr (by simp)
      · obtain rfl : Arr.s 2 = a := by simpa using ha
        exact .inr (by simp)
      · obtain rfl : Arr.s 7 = a := by simpa using ha
        exact .inr (by simp)
      · simp at ha)
  obtain ⟨l, h4, h5⟩ := h3 fun i hi => spread_one (h2 i hi).1
  refine ⟨fs, z, S, l, h1, fun i hi => (h2 i hi).2, h4, h5.trans ?_⟩
  simp [Finset.sum_range_succ]

/-- One hundred steps of the extended Kalman filter on simulated normal data: expected normalised innovation one, and no correlation. -/
example : ∃ (data : (ℕ × ℕ → ℝ) → List (Arr × Arr)) (fs : (ℕ × ℕ → ℝ) → List Gaussian) (y z : (ℕ × ℕ → ℝ) → ℕ → Fin 1 → ℝ)
    (S : ℕ → Matrix (Fin 1) (Fin 1) ℝ),
    (∀ ω, simData calmEnv (drawsFrom ω) 2 1 velocitySys 100 = .ok (data ω) ∧
      (KFS.init (taylorTransform calmEnv exactJac) velocitySys none).kalmanFilter calmEnv ((data ω).map Prod.snd) none 0 none = .ok (fs ω) ∧
      ∀ i : ℕ, i < 100 → ∃ prev, (velocitySys.initState :: fs ω)[i]? = some prev ∧
        PredictsMeasurement (KFS.init (taylorTransform calmEnv exactJac) velocitySys none) none (i * velocitySys.dt) prev (z ω i) (S i)) ∧
    (∀ i < 100, ∫ ω, (y ω i - z ω i) ⬝ᵥ (S i)⁻¹ *ᵥ (y ω i - z ω i) ∂standardNormals = 1) ∧ Uncorrelated standardNormals 100 y z := by
  obtain ⟨data, fs, y, z, S, h1, h2, h3⟩ := C105_innovations (A := fun _ => !![1, 2; 0, 1]) (b := fun _ => ![5, 6]) (H := !![1, 0]) (c := ![1])
    (row := false) C85_normal_draws demoSpace_good (sys := velocitySys)
    demo_describes (fun _ => rfl) (fun _ => rfl) (fun _ => rfl) (fun _ => rfl) (fun t => affine_pointMap _ _ (some t) none)
    (affine_pointMap _ _ none none) 100
  refine ⟨data, fs, y, z, S, fun ω => ⟨(h1 ω).1, (h1 ω).2.1, fun i hi => ((h1 ω).2.2.2 i hi).2⟩, fun i hi => ?_, h3⟩
  rw [C105_normalised (h2 i hi).1 (h2 i hi).2]
  norm_num

end Verif
