import Verif.Lemmas.White
import Verif.Props.Innovations
import Verif.Props.Plot

/-!
# Distribution of errors and innovations with normal noise: C107
-/

namespace Verif

open Matrix MeasureTheory StateSpace

variable {Ω : Type*} [MeasurableSpace Ω] {ℙ : Measure Ω} {env : Env} {n k : ℕ}

section Runs

variable [IsProbabilityMeasure ℙ] {rng : Ω → Rng} {row : Bool} {sys : Sys} {T : Transform} {Tm : Option Transform} {L : StateSpace n k}
  {A : ℝ → Matrix (Fin n) (Fin n) ℝ} {b : ℝ → Fin n → ℝ} {H : Matrix (Fin k) (Fin n) ℝ} {c : Fin k → ℝ}

omit [IsProbabilityMeasure ℙ] in
/-- Whitened vectors. -/
private theorem cross_white {p : ℕ} {X : Ω → Fin p → ℝ} {C M : Matrix (Fin p) (Fin p) ℝ} (hX : SqInt ℙ X) (hC : cross ℙ X X = C)
    (hM : M * C * Mᵀ = 1) (a a' : Fin p) : ∫ ω, (M *ᵥ X ω) a * (M *ᵥ X ω) a' ∂ℙ = if a = a' then 1 else 0 := by
  have : cross ℙ (fun ω => M *ᵥ X ω) (fun ω => M *ᵥ X ω) = 1 := by
    rw [cross_mulVec_left hX (hX.mulVec M), cross_mulVec_right hX hX, hC, ← Matrix.mul_assoc, hM]
  have := congrFun (congrFun this a) a'
  rwa [Matrix.one_apply] at this

private theorem chi_one (hd : NormalDraws ℙ rng) {p : ℕ} {X : Ω → Fin p → ℝ} {C : Matrix (Fin p) (Fin p) ℝ} (hp : C.PosDef) (hX : SqInt ℙ X)
    (hc : Combinations rng X) (hC : cross ℙ X X = C) : ℙ.map (fun ω => X ω ⬝ᵥ C⁻¹ *ᵥ X ω) = chiSquare p := by
  obtain ⟨M, h1, h2⟩ := exists_whitener hp
  simp only [normalised_eq h1]
  exact white_chiSquare hd (fun a => hc.mulVec M a) (cross_white hX hC h2) (Equiv.refl _)

/-- **C107.** Simulate a linear system with normal noise and filter the measurements: the normalised squared error of every estimate has
the chi-square distribution with as many degrees of freedom as the state has components. -/
theorem C107_filter (hd : NormalDraws ℙ rng) (hL : L.Good) (hK : Describes env (KFS.init T sys Tm) none 0 sys.initState L)
    (hA : ∀ i : ℕ, L.A i = A (i * sys.dt)) (hb : ∀ i : ℕ, L.b i = b (i * sys.dt)) (hH : ∀ i, L.H i = H) (hc : ∀ i, L.c i = c)
    (htr : ∀ t, PointMap row Set.univ (fun x => sys.transition x (some t) none) fun x => A t *ᵥ x + b t)
    (hme : PointMap row Set.univ (fun x => sys.measurement x none none) fun x => H *ᵥ x + c) (N : ℕ) :
    ∃ (data : Ω → List (Arr × Arr)) (fs : Ω → List Gaussian) (x : Ω → ℕ → Fin n → ℝ) (y : Ω → ℕ → Fin k → ℝ) (m : Ω → ℕ → Fin n → ℝ)
      (C : ℕ → Matrix (Fin n) (Fin n) ℝ),
      (∀ ω, simData env (rng ω) n k sys N = .ok (data ω) ∧
        (KFS.init T sys Tm).kalmanFilter env ((data ω).map Prod.snd) none 0 none = .ok (fs ω) ∧
        Reports env N (data ω) (fs ω) (x ω) (y ω) (m ω) C) ∧
      ∀ i < N, (C i).PosDef ∧ ℙ.map (fun ω => (x ω i - m ω i) ⬝ᵥ (C i)⁻¹ *ᵥ (x ω i - m ω i)) = chiSquare n := by
  have hpath := hd.path hL.P0.posSemidef hL.Q.posSemidef hL.R.posSemidef hA hb hH hc
  obtain ⟨data, fs, hrep⟩ := filter_reports (rng := rng) hL hK htr hme N
  exact ⟨data, fs, _, _, _, _, hrep, fun i hi => ⟨hL.filt (i + 1), chi_one hd (hL.filt (i + 1)) (hpath.sq_err (i + 1))
    (hpath.comb_err (.draw 0 _ hL.P0.posSemidef) (fun i => .draw0 _ hL.Q.posSemidef) (fun i => .draw0 _ hL.R.posSemidef) (i + 1))
    (hpath.cov_err hL (i + 1))⟩⟩

/-- **C107.** The same for the smoother. -/
theorem C107_smoother (hd : NormalDraws ℙ rng) (hL : L.Good) (hK : Describes env (KFS.init T sys Tm) none 0 sys.initState L)
    (hA : ∀ i : ℕ, L.A i = A (i * sys.dt)) (hb : ∀ i : ℕ, L.b i = b (i * sys.dt)) (hH : ∀ i, L.H i = H) (hc : ∀ i, L.c i = c)
    (htr : ∀ t, PointMap row Set.univ (fun x => sys.transition x (some t) none) fun x => A t *ᵥ x + b t)
    (hme : PointMap row Set.univ (fun x => sys.measurement x none none) fun x => H *ᵥ x + c) {N : ℕ} (hN0 : 0 < N) :
    ∃ (data : Ω → List (Arr × Arr)) (fs rs : Ω → List Gaussian) (x : Ω → ℕ → Fin n → ℝ) (y : Ω → ℕ → Fin k → ℝ) (m : Ω → ℕ → Fin n → ℝ)
      (C : ℕ → Matrix (Fin n) (Fin n) ℝ),
      (∀ ω, simData env (rng ω) n k sys N = .ok (data ω) ∧
        (KFS.init T sys Tm).kalmanFilter env ((data ω).map Prod.snd) none 0 none = .ok (fs ω) ∧
        (KFS.init T sys Tm).kalmanSmoother env (fs ω) none = .ok (rs ω) ∧
        Reports env N (data ω) (rs ω) (x ω) (y ω) (m ω) C) ∧
      ∀ i < N, (C i).PosDef ∧ ℙ.map (fun ω => (x ω i - m ω i) ⬝ᵥ (C i)⁻¹ *ᵥ (x ω i - m ω i)) = chiSquare n := by
  have hpath := hd.path hL.P0.posSemidef hL.Q.posSemidef hL.R.posSemidef hA hb hH hc
  obtain ⟨data, fs, rs, hrep⟩ := smoother_reports (rng := rng) hL hK htr hme hN0
  exact ⟨data, fs, rs, _, _, _, _, hrep, fun i hi => ⟨hL.smth _ (i + 1), chi_one hd (hL.smth _ (i + 1)) (hpath.sq_serr _ (i + 1))
    (hpath.comb_serr (.draw 0 _ hL.P0.posSemidef) (fun i => .draw0 _ hL.Q.posSemidef) (fun i => .draw0 _ hL.R.posSemidef) _ (i + 1))
    (hpath.cov_serr hL _ (i + 1))⟩⟩

/-- **C107.** Simulated data of a linear system with normal noise, filtered with the filter built from the same system: the differences
between measurements and predicted measurements are independent of each other, and the sum of their normalised squares has the chi-square
distribution with as many degrees of freedom as there are numbers measured. -/
theorem C107_innovations (hd : NormalDraws ℙ rng) (hL : L.Good) (hK : Describes env (KFS.init T sys Tm) none 0 sys.initState L)
    (hA : ∀ i : ℕ, L.A i = A (i * sys.dt)) (hb : ∀ i : ℕ, L.b i = b (i * sys.dt)) (hH : ∀ i, L.H i = H) (hc : ∀ i, L.c i = c)
    (htr : ∀ t, PointMap row Set.univ (fun x => sys.transition x (some t) none) fun x => A t *ᵥ x + b t)
    (hme : PointMap row Set.univ (fun x => sys.measurement x none none) fun x => H *ᵥ x + c) (N : ℕ) :
    ∃ (data : Ω → List (Arr × Arr)) (fs : Ω → List Gaussian) (y z : Ω → ℕ → Fin k → ℝ) (S : ℕ → Matrix (Fin k) (Fin k) ℝ),
      (∀ ω, simData env (rng ω) n k sys N = .ok (data ω) ∧
        (KFS.init T sys Tm).kalmanFilter env ((data ω).map Prod.snd) none 0 none = .ok (fs ω) ∧ (data ω).length = N ∧
        ∀ i < N, (∃ p, (data ω)[i]? = some p ∧ IsPoint p.2 (y ω i)) ∧ ∃ prev, (sys.initState :: fs ω)[i]? = some prev ∧
          PredictsMeasurement (KFS.init T sys Tm) none (i * sys.dt) prev (z ω i) (S i)) ∧
      (∀ i < N, (S i).PosDef ∧ ℙ.map (fun ω => (y ω i - z ω i) ⬝ᵥ (S i)⁻¹ *ᵥ (y ω i - z ω i)) = chiSquare k) ∧
      ProbabilityTheory.iIndepFun (fun (i : Fin N) ω => y ω i - z ω i) ℙ ∧
      ℙ.map (fun ω => ∑ i ∈ Finset.range N, (y ω i - z ω i) ⬝ᵥ (S i)⁻¹ *ᵥ (y ω i - z ω i)) = chiSquare (N * k) := by
  have hpath := hd.path hL.P0.posSemidef hL.Q.posSemidef hL.R.posSemidef hA hb hH hc
  obtain ⟨data, fs, hrep⟩ := filter_reports (rng := rng) hL hK htr hme N
  have hcomb : ∀ i, Combinations rng (L.innov (sensed rng L A b H c sys.dt) i) := fun i => by
    rw [hpath.innov_eq]
    exact (((hpath.comb_err (.draw 0 _ hL.P0.posSemidef) (fun i => .draw0 _ hL.Q.posSemidef) (fun i => .draw0 _ hL.R.posSemidef) i).mulVec _).add
      (.draw0 _ hL.Q.posSemidef)).mulVec _ |>.add (.draw0 _ hL.R.posSemidef)
  refine ⟨data, fs, sensed rng L A b H c sys.dt, fun ω => L.zpred (sensed rng L A b H c sys.dt ω), L.zcov, fun ω => ?_,
    fun i hi => ⟨hL.zcov i, chi_one hd (hL.zcov i) (hpath.sq_innov i) (hcomb i) (hpath.cov_innov hL i)⟩, ?_, ?_⟩
  · obtain ⟨h1, h2, h3⟩ := hrep ω
    refine ⟨h1, h2, h3.data_length, fun i hi => ⟨?_, ?_⟩⟩
    · obtain ⟨p, hp, -, hp'⟩ := h3.data i hi
      exact ⟨p, hp, hp'⟩
    · have hd : (KFS.init T sys Tm).dt = sys.dt := rfl
      cases i with
      | zero =>
        refine ⟨_, rfl, ?_⟩
        have := hK.predicts hL (y := sensed rng L A b H c sys.dt ω) (i := 0) hK.prior
        rwa [zero_add, hd] at this
      | succ i =>
        obtain ⟨g, hg, hm⟩ := h3.result i (by omega)
        rw [L.filt_cov' 0 (sensed rng L A b H c sys.dt ω)] at hm
        refine ⟨g, by simpa using hg, ?_⟩
        have := hK.predicts hL hm
        rwa [zero_add, hd] at this
  · have hg := gaussian_of_combinations hd (W := fun (p : Fin N × Fin k) ω => L.innov (sensed rng L A b H c sys.dt) p.1 ω p.2) fun p => hcomb p.1 p.2
    have hg' := hg.map (ContinuousLinearMap.pi fun i : Fin N => ContinuousLinearMap.pi fun a : Fin k =>
      ContinuousLinearMap.proj (R := ℝ) (φ := fun _ : Fin N × Fin k => ℝ) (i, a))
    refine ProbabilityTheory.HasGaussianLaw.iIndepFun_of_covariance_eval
      (X := fun (i : Fin N) (a : Fin k) ω => L.innov (sensed rng L A b H c sys.dt) i ω a) hg' fun i j hij a a' => ?_
    rw [cov_combinations hd (hcomb i a) (hcomb j a')]
    exact congrFun (congrFun (hpath.innov_ne hL (fun h => hij (Fin.ext h))) a) a'
  · choose M h1 h2 using fun i => exists_whitener (hL.zcov i)
    have key := white_chiSquare hd (W := fun (p : Fin N × Fin k) ω => (M p.1 *ᵥ L.innov (sensed rng L A b H c sys.dt) p.1 ω) p.2)
      (fun p => (hcomb p.1).mulVec (M p.1) p.2) (fun p p' => by
        by_cases h : (p.1 : ℕ) = p'.1
        · have e : p.1 = p'.1 := Fin.ext h
          rw [← e, cross_white (hpath.sq_innov p.1) (hpath.cov_innov hL p.1) (h2 p.1)]
          simp only [Prod.ext_iff, e, true_and]
        · have e := hpath.innov_ne hL h
          rw [if_neg fun e => h (by rw [e])]
          have : cross ℙ (fun ω => M p.1 *ᵥ L.innov (sensed rng L A b H c sys.dt) p.1 ω)
              (fun ω => M p'.1 *ᵥ L.innov (sensed rng L A b H c sys.dt) p'.1 ω) = 0 := by
            rw [cross_mulVec_left (hpath.sq_innov _) ((hpath.sq_innov _).mulVec _), cross_mulVec_right (hpath.sq_innov _) (hpath.sq_innov _), e,
              Matrix.zero_mul, Matrix.mul_zero]
          exact congrFun (congrFun this p.2) p'.2) finProdFinEquiv.symm
    rw [← key]
    congr 1
    funext ω
    rw [Fintype.sum_prod_type, ← Fin.sum_univ_eq_sum_range (fun i => (sensed rng L A b H c sys.dt ω i - L.zpred (sensed rng L A b H c sys.dt ω) i) ⬝ᵥ
      (L.zcov i)⁻¹ *ᵥ (sensed rng L A b H c sys.dt ω i - L.zpred (sensed rng L A b H c sys.dt ω) i))]
    refine Finset.sum_congr rfl fun i _ => ?_
    rw [normalised_eq (h1 i)]
    rfl

end Runs

/-- One hundred steps of the extended Kalman filter on simulated normal data. -/
example : ∃ (data : (ℕ × ℕ → ℝ) → List (Arr × Arr)) (fs : (ℕ × ℕ → ℝ) → List Gaussian) (y z : (ℕ × ℕ → ℝ) → ℕ → Fin 1 → ℝ)
    (S : ℕ → Matrix (Fin 1) (Fin 1) ℝ),
    (∀ ω, simData calmEnv (drawsFrom ω) 2 1 velocitySys 100 = .ok (data ω) ∧
      (KFS.init (taylorTransform calmEnv exactJac) velocitySys none).kalmanFilter calmEnv ((data ω).map Prod.snd) none 0 none = .ok (fs ω) ∧
      ∀ i : ℕ, i < 100 → ∃ prev, (velocitySys.initState :: fs ω)[i]? = some prev ∧
        PredictsMeasurement (KFS.init (taylorTransform calmEnv exactJac) velocitySys none) none (i * velocitySys.dt) prev (z ω i) (S i)) ∧
    ProbabilityTheory.iIndepFun (fun (i : Fin 100) ω => y ω i - z ω i) standardNormals ∧
    standardNormals.map (fun ω => ∑ i ∈ Finset.range 100, (y ω i - z ω i) ⬝ᵥ (S i)⁻¹ *ᵥ (y ω i - z ω i)) = chiSquare 100 := by
  obtain ⟨data, fs, y, z, S, h1, -, h3, h4⟩ := C107_innovations (A := fun _ => !![1, 2; 0, 1]) (b := fun _ => ![5, 6]) (H := !![1, 0]) (c := ![1])
    (row := false) C92_normal_draws demoSpace_good (sys := velocitySys)
    demo_describes (fun _ => rfl) (fun _ => rfl) (fun _ => rfl) (fun _ => rfl) (fun t => affine_pointMap _ _ (some t) none)
    (affine_pointMap _ _ none none) 100
  exact ⟨data, fs, y, z, S, fun ω => ⟨(h1 ω).1, (h1 ω).2.1, fun i hi => ((h1 ω).2.2.2 i hi).2⟩, h3, h4⟩

/-- The same for the errors of filter and smoother, two components. -/
example : ∃ (data : (ℕ × ℕ → ℝ) → List (Arr × Arr)) (fs rs : (ℕ × ℕ → ℝ) → List Gaussian) (x : (ℕ × ℕ → ℝ) → ℕ → Fin 2 → ℝ)
    (y : (ℕ × ℕ → ℝ) → ℕ → Fin 1 → ℝ) (m : (ℕ × ℕ → ℝ) → ℕ → Fin 2 → ℝ) (C : ℕ → Matrix (Fin 2) (Fin 2) ℝ),
    (∀ ω, simData calmEnv (drawsFrom ω) 2 1 velocitySys 100 = .ok (data ω) ∧
      (KFS.init (taylorTransform calmEnv exactJac) velocitySys none).kalmanFilter calmEnv ((data ω).map Prod.snd) none 0 none = .ok (fs ω) ∧
      (KFS.init (taylorTransform calmEnv exactJac) velocitySys none).kalmanSmoother calmEnv (fs ω) none = .ok (rs ω) ∧
      Reports calmEnv 100 (data ω) (rs ω) (x ω) (y ω) (m ω) C) ∧
    ∀ i < 100, (C i).PosDef ∧ standardNormals.map (fun ω => (x ω i - m ω i) ⬝ᵥ (C i)⁻¹ *ᵥ (x ω i - m ω i)) = chiSquare 2 :=
  C107_smoother (A := fun _ => !![1, 2; 0, 1]) (b := fun _ => ![5, 6]) (H := !![1, 0]) (c := ![1])
    (row := false) C92_normal_draws demoSpace_good (sys := velocitySys)
    demo_describes (fun _ => rfl) (fun _ => rfl) (fun _ => rfl) (fun _ => rfl) (fun t => affine_pointMap _ _ (some t) none)
    (affine_pointMap _ _ none none) (N := 100) (by norm_num)

end Verif
