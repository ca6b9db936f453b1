import Verif.Spec.Calibrate
import Verif.Props.Trajectory
import Verif.Props.Likelihood
import Verif.Props.Forget
import Verif.Lemmas.Calibrate
import Mathlib.Probability.Independence.InfinitePi
import Mathlib.Probability.Distributions.Gaussian.Real
import Mathlib.Analysis.Matrix.Order

/-!
# Filter and smoother on simulated data of linear systems: C85
-/

namespace Verif

open Matrix MeasureTheory StateSpace

variable {Ω : Type*} [MeasurableSpace Ω] {ℙ : Measure Ω} {env : Env} {n k : ℕ}

section Draws

variable {rng : Ω → Rng}

private theorem FairDraws.sq [IsFiniteMeasure ℙ] (h : FairDraws ℙ rng) (j : ℕ) {p : ℕ} (μ : Fin p → ℝ) {C : Matrix (Fin p) (Fin p) ℝ}
    (hC : C.PosSemidef) : SqInt ℙ fun ω => rng ω j p μ C - μ := fun a => (h.finite j p μ C hC a).sub (memLp_const (μ a))

private theorem FairDraws.cross_one [IsProbabilityMeasure ℙ] (h : FairDraws ℙ rng) (j : ℕ) {p : ℕ} (μ : Fin p → ℝ) {C : Matrix (Fin p) (Fin p) ℝ}
    (hC : C.PosSemidef) : cross ℙ (fun ω => rng ω j p μ C - μ) unit1 = 0 := by
  ext a b
  simp only [cross, of_apply, unit1, mul_one, Pi.sub_apply, Matrix.zero_apply]
  rw [integral_sub ((h.finite j p μ C hC a).integrable (by norm_num)) (integrable_const _), h.mean j p μ C hC]
  simp

private theorem FairDraws.cross_self (h : FairDraws ℙ rng) (j : ℕ) {p : ℕ} (μ : Fin p → ℝ) {C : Matrix (Fin p) (Fin p) ℝ}
    (hC : C.PosSemidef) : cross ℙ (fun ω => rng ω j p μ C - μ) (fun ω => rng ω j p μ C - μ) = C := by
  ext a b
  exact h.cov j p μ C hC a b

private theorem FairDraws.cross_ne (h : FairDraws ℙ rng) {j j' : ℕ} (hj : j ≠ j') {p p' : ℕ} (μ : Fin p → ℝ) {C : Matrix (Fin p) (Fin p) ℝ}
    (hC : C.PosSemidef) (μ' : Fin p' → ℝ) {C' : Matrix (Fin p') (Fin p') ℝ} (hC' : C'.PosSemidef) :
    cross ℙ (fun ω => rng ω j p μ C - μ) (fun ω => rng ω j' p' μ' C' - μ') = 0 := by
  ext a b
  exact h.uncorrelated j j' hj p μ C p' μ' C' hC hC' a b

/-- Random states and measurements of a linear model made from draws. -/
theorem FairDraws.walk [IsProbabilityMeasure ℙ] (h : FairDraws ℙ rng) (L : StateSpace n k) (hP : L.P0.PosSemidef) (hQ : L.Q.PosSemidef)
    (hR : L.R.PosSemidef) {x : ℕ → Ω → Fin n → ℝ} {y : Ω → ℕ → Fin k → ℝ} (h0 : ∀ ω, x 0 ω = rng ω 0 n L.m0 L.P0)
    (hx : ∀ i ω, x (i + 1) ω = L.A i *ᵥ x i ω + L.b i + rng ω (2 * i + 1) n 0 L.Q)
    (hy : ∀ i ω, y ω i = L.H i *ᵥ x (i + 1) ω + L.c i + rng ω (2 * i + 2) k 0 L.R) :
    L.Path ℙ x (fun i ω => rng ω (2 * i + 1) n 0 L.Q) (fun i ω => rng ω (2 * i + 2) k 0 L.R) y := by
  have e : ∀ j p C, (fun ω => rng ω j p 0 C) = fun ω => rng ω j p 0 C - 0 := fun j p C => by simp
  refine ⟨hx, hy, by simp only [h0]; exact h.sq 0 _ hP, fun i => ?_, fun i => ?_, by simp only [h0]; exact h.cross_one 0 _ hP, fun i => ?_,
    fun i => ?_, by simp only [h0]; exact h.cross_self 0 _ hP, fun i => ?_, fun i => ?_, fun i => ?_, fun i => ?_, fun i j hij => ?_,
    fun i j hij => ?_, fun i j => ?_⟩
  · rw [e]; exact h.sq _ _ hQ
  · rw [e]; exact h.sq _ _ hR
  · rw [e]; exact h.cross_one _ _ hQ
  · rw [e]; exact h.cross_one _ _ hR
  · rw [e]; exact h.cross_self _ _ hQ
  · rw [e]; exact h.cross_self _ _ hR
  · simp only [h0]; rw [e]; exact h.cross_ne (by omega) _ hQ _ hP
  · simp only [h0]; rw [e]; exact h.cross_ne (by omega) _ hR _ hP
  · rw [e, e]; exact h.cross_ne (by omega) _ hQ _ hQ
  · rw [e, e]; exact h.cross_ne (by omega) _ hR _ hR
  · rw [e, e]; exact h.cross_ne (by omega) _ hQ _ hR

/-- The trajectories of a simulation of a linear system. -/
theorem FairDraws.path [IsProbabilityMeasure ℙ] (h : FairDraws ℙ rng) {L : StateSpace n k} (hP : L.P0.PosSemidef) (hQ : L.Q.PosSemidef)
    (hR : L.R.PosSemidef) {A : ℝ → Matrix (Fin n) (Fin n) ℝ}
    {b : ℝ → Fin n → ℝ} {H : Matrix (Fin k) (Fin n) ℝ} {c : Fin k → ℝ} {dt : ℝ} (hA : ∀ i : ℕ, L.A i = A (i * dt)) (hb : ∀ i : ℕ, L.b i = b (i * dt))
    (hH : ∀ i, L.H i = H) (hc : ∀ i, L.c i = c) :
    L.Path ℙ (fun i ω => trajectory (rng ω) (⟨L.m0, L.P0, L.Q, L.R⟩ : Laws n k) (fun t x => A t *ᵥ x + b t) dt i)
      (fun i ω => rng ω (2 * i + 1) n 0 L.Q) (fun i ω => rng ω (2 * i + 2) k 0 L.R)
      (fun ω i => (H *ᵥ trajectory (rng ω) (⟨L.m0, L.P0, L.Q, L.R⟩ : Laws n k) (fun t x => A t *ᵥ x + b t) dt (i + 1) + c) +
        rng ω (2 * i + 2) k 0 L.R) :=
  h.walk L hP hQ hR (fun _ => rfl) (fun i ω => by rw [hA, hb]; rfl) fun i ω => by rw [hH, hc]

end Draws

theorem calibrated_of {x m : Ω → Fin n → ℝ} {C : Matrix (Fin n) (Fin n) ℝ} (h1 : SqInt ℙ fun ω => x ω - m ω)
    (h2 : cross ℙ (fun ω => x ω - m ω) unit1 = 0) (h3 : cross ℙ (fun ω => x ω - m ω) (fun ω => x ω - m ω) = C) : Calibrated ℙ x m C := by
  refine ⟨h1, fun a => ?_, fun a b => congrFun (congrFun h3 a) b⟩
  have : ∫ ω, (x ω a - m ω a) * 1 ∂ℙ = 0 := congrFun (congrFun h2 a) 0
  simpa using this

section Runs

variable [IsProbabilityMeasure ℙ] {rng : Ω → Rng} {row : Bool} {sys : Sys} {T : Transform} {Tm : Option Transform} {L : StateSpace n k}
  {A : ℝ → Matrix (Fin n) (Fin n) ℝ} {b : ℝ → Fin n → ℝ} {H : Matrix (Fin k) (Fin n) ℝ} {c : Fin k → ℝ}

/-- The true states of simulation `ω`, beginning with the initial one. -/
noncomputable abbrev truth (rng : Ω → Rng) (L : StateSpace n k) (A : ℝ → Matrix (Fin n) (Fin n) ℝ) (b : ℝ → Fin n → ℝ) (dt : ℝ) (i : ℕ)
    (ω : Ω) : Fin n → ℝ := trajectory (rng ω) (⟨L.m0, L.P0, L.Q, L.R⟩ : Laws n k) (fun t x => A t *ᵥ x + b t) dt i

/-- The measurements of simulation `ω`. -/
noncomputable abbrev sensed (rng : Ω → Rng) (L : StateSpace n k) (A : ℝ → Matrix (Fin n) (Fin n) ℝ) (b : ℝ → Fin n → ℝ)
    (H : Matrix (Fin k) (Fin n) ℝ) (c : Fin k → ℝ) (dt : ℝ) (ω : Ω) (i : ℕ) : Fin k → ℝ :=
  (H *ᵥ truth rng L A b dt (i + 1) ω + c) + rng ω (2 * i + 2) k 0 L.R

omit [MeasurableSpace Ω] in
/-- The results of the filter on simulated data. -/
theorem filter_reports (hL : L.Good) (hK : Describes env (KFS.init T sys Tm) none 0 sys.initState L)
    (htr : ∀ t, PointMap row Set.univ (fun x => sys.transition x (some t) none) fun x => A t *ᵥ x + b t)
    (hme : PointMap row Set.univ (fun x => sys.measurement x none none) fun x => H *ᵥ x + c) (N : ℕ) :
    ∃ (data : Ω → List (Arr × Arr)) (fs : Ω → List Gaussian), ∀ ω, simData env (rng ω) n k sys N = .ok (data ω) ∧
      (KFS.init T sys Tm).kalmanFilter env ((data ω).map Prod.snd) none 0 none = .ok (fs ω) ∧
      Reports env N (data ω) (fs ω) (fun i => truth rng L A b sys.dt (i + 1) ω) (sensed rng L A b H c sys.dt ω)
        (fun i => (L.filt (sensed rng L A b H c sys.dt ω) (i + 1)).1) (fun i => (L.filt 0 (i + 1)).2) := by
  have hsim := fun ω => C78_simulate (env := env) (row := row) (sys := sys) (L := (⟨L.m0, L.P0, L.Q, L.R⟩ : Laws n k)) hK.prior hK.Q hK.R htr hme
    (rng ω) N fun _ _ => trivial
  choose data hdata hfol using hsim
  have hst : ∀ ω i p, (data ω)[i]? = some p → IsPoint p.1 (truth rng L A b sys.dt (i + 1) ω) ∧ IsPoint p.2 (sensed rng L A b H c sys.dt ω i) :=
    fun ω i p hp => ⟨((hfol ω).state i p hp).isPoint, ((hfol ω).measurement i p hp).isPoint⟩
  have hvec : ∀ ω i a, ((data ω).map Prod.snd)[i]? = some a → IsVec a.squeeze (sensed rng L A b H c sys.dt ω i) := fun ω i a ha => by
    rw [List.getElem?_map, Option.map_eq_some_iff] at ha
    obtain ⟨p, hp, rfl⟩ := ha
    exact (hst ω i p hp).2.isVec
  have hflt := fun ω => Describes.filter (prior := none) hL hK (hvec ω)
  choose fs hrun hlen hres using hflt
  have hN : ∀ ω, (List.map Prod.snd (data ω)).length = N := fun ω => by rw [List.length_map, (hfol ω).length]
  refine ⟨data, fs, fun ω => ⟨hdata ω, hrun ω, (hfol ω).length, (hlen ω).trans (hN ω), fun i hi => ?_, fun i hi => ?_⟩⟩
  · have hi' : i < (data ω).length := by rw [(hfol ω).length]; exact hi
    exact ⟨_, List.getElem?_eq_getElem hi', hst ω i _ (List.getElem?_eq_getElem hi')⟩
  · obtain ⟨g, h1, h2⟩ := hres ω i (by rw [hN]; exact hi)
    rw [L.filt_cov' _ 0] at h2
    exact ⟨g, h1, h2⟩

omit [MeasurableSpace Ω] in
/-- The results of the smoother on simulated data. -/
theorem smoother_reports (hL : L.Good) (hK : Describes env (KFS.init T sys Tm) none 0 sys.initState L)
    (htr : ∀ t, PointMap row Set.univ (fun x => sys.transition x (some t) none) fun x => A t *ᵥ x + b t)
    (hme : PointMap row Set.univ (fun x => sys.measurement x none none) fun x => H *ᵥ x + c) {N : ℕ} (hN0 : 0 < N) :
    ∃ (data : Ω → List (Arr × Arr)) (fs rs : Ω → List Gaussian), ∀ ω, simData env (rng ω) n k sys N = .ok (data ω) ∧
      (KFS.init T sys Tm).kalmanFilter env ((data ω).map Prod.snd) none 0 none = .ok (fs ω) ∧
      (KFS.init T sys Tm).kalmanSmoother env (fs ω) none = .ok (rs ω) ∧
      Reports env N (data ω) (rs ω) (fun i => truth rng L A b sys.dt (i + 1) ω) (sensed rng L A b H c sys.dt ω)
        (fun i => (L.smth (sensed rng L A b H c sys.dt ω) (i + 1) (N - (i + 1))).1) (fun i => (L.smth 0 (i + 1) (N - (i + 1))).2) := by
  have hsim := fun ω => C78_simulate (env := env) (row := row) (sys := sys) (L := (⟨L.m0, L.P0, L.Q, L.R⟩ : Laws n k)) hK.prior hK.Q hK.R htr hme
    (rng ω) N fun _ _ => trivial
  choose data hdata hfol using hsim
  have hst : ∀ ω i p, (data ω)[i]? = some p → IsPoint p.1 (truth rng L A b sys.dt (i + 1) ω) ∧ IsPoint p.2 (sensed rng L A b H c sys.dt ω i) :=
    fun ω i p hp => ⟨((hfol ω).state i p hp).isPoint, ((hfol ω).measurement i p hp).isPoint⟩
  have hvec : ∀ ω i a, ((data ω).map Prod.snd)[i]? = some a → IsVec a.squeeze (sensed rng L A b H c sys.dt ω i) := fun ω i a ha => by
    rw [List.getElem?_map, Option.map_eq_some_iff] at ha
    obtain ⟨p, hp, rfl⟩ := ha
    exact (hst ω i p hp).2.isVec
  have hN : ∀ ω, (List.map Prod.snd (data ω)).length = N := fun ω => by rw [List.length_map, (hfol ω).length]
  have hflt := fun ω => Describes.smoother (prior := none) hL hK (hvec ω) (List.length_pos_iff.1 (by rw [hN]; exact hN0))
  choose fs rs hrun hrun' hlen hres using hflt
  refine ⟨data, fs, rs, fun ω => ⟨hdata ω, hrun ω, hrun' ω, (hfol ω).length, (hlen ω).trans (hN ω), fun i hi => ?_, fun i hi => ?_⟩⟩
  · have hi' : i < (data ω).length := by rw [(hfol ω).length]; exact hi
    exact ⟨_, List.getElem?_eq_getElem hi', hst ω i _ (List.getElem?_eq_getElem hi')⟩
  · obtain ⟨g, h1, h2⟩ := hres ω i (by rw [hN]; exact hi)
    rw [hN, L.smth_cov' _ 0] at h2
    exact ⟨g, h1, h2⟩

/-- **C85.** Simulate a linear system and filter the simulated measurements with the filter built from the same system: whatever
distribution the draws have, as long as they have the mean and covariance asked for and are uncorrelated, every estimate has an error
of mean zero and of the covariance that the filter reports, and no affine function of the measurements up to that time has a smaller
mean squared error. -/
theorem C85_filter (hfair : FairDraws ℙ rng) (hL : L.Good) (hK : Describes env (KFS.init T sys Tm) none 0 sys.initState L)
    (hA : ∀ i : ℕ, L.A i = A (i * sys.dt)) (hb : ∀ i : ℕ, L.b i = b (i * sys.dt)) (hH : ∀ i, L.H i = H) (hc : ∀ i, L.c i = c)
    (htr : ∀ t, PointMap row Set.univ (fun x => sys.transition x (some t) none) fun x => A t *ᵥ x + b t)
    (hme : PointMap row Set.univ (fun x => sys.measurement x none none) fun x => H *ᵥ x + c) (N : ℕ) :
    ∃ (data : Ω → List (Arr × Arr)) (fs : Ω → List Gaussian) (x : Ω → ℕ → Fin n → ℝ) (y : Ω → ℕ → Fin k → ℝ) (m : Ω → ℕ → Fin n → ℝ)
      (C : ℕ → Matrix (Fin n) (Fin n) ℝ),
      (∀ ω, simData env (rng ω) n k sys N = .ok (data ω) ∧
        (KFS.init T sys Tm).kalmanFilter env ((data ω).map Prod.snd) none 0 none = .ok (fs ω) ∧
        Reports env N (data ω) (fs ω) (x ω) (y ω) (m ω) C) ∧
      ∀ i < N, (C i).PosDef ∧ Calibrated ℙ (fun ω => x ω i) (fun ω => m ω i) (C i) ∧ LeastVariance ℙ (fun ω => x ω i) y (i + 1) (C i) := by
  have hpath := hfair.path hL.P0.posSemidef hL.Q.posSemidef hL.R.posSemidef hA hb hH hc
  obtain ⟨data, fs, hrep⟩ := filter_reports (rng := rng) hL hK htr hme N
  exact ⟨data, fs, _, _, _, _, hrep, fun i hi => ⟨hL.filt (i + 1),
    calibrated_of (hpath.sq_err (i + 1)) (hpath.mean_err (i + 1)) (hpath.cov_err hL (i + 1)), fun β B u => hpath.best hL 0 (i + 1) β B u⟩⟩

/-- **C85.** The same for the smoother, whose estimates are best among the affine functions of all measurements. -/
theorem C85_smoother (hfair : FairDraws ℙ rng) (hL : L.Good) (hK : Describes env (KFS.init T sys Tm) none 0 sys.initState L)
    (hA : ∀ i : ℕ, L.A i = A (i * sys.dt)) (hb : ∀ i : ℕ, L.b i = b (i * sys.dt)) (hH : ∀ i, L.H i = H) (hc : ∀ i, L.c i = c)
    (htr : ∀ t, PointMap row Set.univ (fun x => sys.transition x (some t) none) fun x => A t *ᵥ x + b t)
    (hme : PointMap row Set.univ (fun x => sys.measurement x none none) fun x => H *ᵥ x + c) {N : ℕ} (hN0 : 0 < N) :
    ∃ (data : Ω → List (Arr × Arr)) (fs rs : Ω → List Gaussian) (x : Ω → ℕ → Fin n → ℝ) (y : Ω → ℕ → Fin k → ℝ) (m : Ω → ℕ → Fin n → ℝ)
      (C : ℕ → Matrix (Fin n) (Fin n) ℝ),
      (∀ ω, simData env (rng ω) n k sys N = .ok (data ω) ∧
        (KFS.init T sys Tm).kalmanFilter env ((data ω).map Prod.snd) none 0 none = .ok (fs ω) ∧
        (KFS.init T sys Tm).kalmanSmoother env (fs ω) none = .ok (rs ω) ∧
        Reports env N (data ω) (rs ω) (x ω) (y ω) (m ω) C) ∧
      ∀ i < N, (C i).PosDef ∧ Calibrated ℙ (fun ω => x ω i) (fun ω => m ω i) (C i) ∧ LeastVariance ℙ (fun ω => x ω i) y N (C i) := by
  have hpath := hfair.path hL.P0.posSemidef hL.Q.posSemidef hL.R.posSemidef hA hb hH hc
  obtain ⟨data, fs, rs, hrep⟩ := smoother_reports (rng := rng) hL hK htr hme hN0
  refine ⟨data, fs, rs, _, _, _, _, hrep, fun i hi => ⟨hL.smth _ (i + 1),
    calibrated_of (hpath.sq_serr _ (i + 1)) (hpath.mean_serr _ (i + 1)) (hpath.cov_serr hL _ (i + 1)), fun β B u => ?_⟩⟩
  have := hpath.best hL (N - (i + 1)) (i + 1) β B u
  rwa [show i + 1 + (N - (i + 1)) = N by omega] at this

end Runs

/-! ## Scores -/

section Scores

variable {N : ℕ} {data : Ω → List (Arr × Arr)} {gs : Ω → List Gaussian} {x : Ω → ℕ → Fin n → ℝ} {y : Ω → ℕ → Fin k → ℝ}
  {m : Ω → ℕ → Fin n → ℝ} {C : ℕ → Matrix (Fin n) (Fin n) ℝ}

theorem zip_forall {α β γ : Type} {P : α × β → γ → Prop} {as : List α} {bs : List β} {N : ℕ} (ha : as.length = N) (hb : bs.length = N)
    (f : ℕ → γ) (h : ∀ i < N, ∃ a b, as[i]? = some a ∧ bs[i]? = some b ∧ P (a, b) (f i)) :
    List.Forall₂ P (as.zip bs) ((List.range N).map f) := by
  refine List.forall₂_iff_get.2 ⟨by simp [ha, hb], fun i h1 h2 => ?_⟩
  have hi : i < N := by simpa [ha, hb] using h1
  obtain ⟨a, b, h3, h4, h5⟩ := h i hi
  have e1 := (List.getElem?_eq_some_iff.1 h3).2
  have e2 := (List.getElem?_eq_some_iff.1 h4).2
  simpa [e1, e2] using h5

theorem sum_range_list (f : ℕ → ℝ) : ∀ N, ((List.range N).map f).sum = ∑ i ∈ Finset.range N, f i
  | 0 => by simp
  | N + 1 => by rw [List.range_succ, List.map_append, List.sum_append, sum_range_list f N, Finset.sum_range_succ]; simp

/-- **C85.** Calibrated results: the expected square of `Metrics.rmse` against the true states is the mean of the traces of the reported
covariances. -/
theorem C85_rmse (hN : 0 < N) (h : ∀ ω, Reports env N (data ω) (gs ω) (x ω) (y ω) (m ω) C)
    (hcal : ∀ i < N, Calibrated ℙ (fun ω => x ω i) (fun ω => m ω i) (C i)) :
    ∃ e : Ω → ℝ, (∀ ω, Metrics.rmse env (gs ω) ((data ω).map Prod.fst) = .ok (e ω)) ∧ ∫ ω, e ω ^ 2 ∂ℙ = (∑ i ∈ Finset.range N, (C i).trace) / N := by
  refine ⟨fun ω => rootMeanSq ((List.range N).map fun i => (m ω i, x ω i)), fun ω => ?_, ?_⟩
  · refine (C58_rmse (zip_forall (h ω).length (by simp [(h ω).data_length]) (fun i => (m ω i, x ω i)) fun i hi => ?_) (by simp; omega)).1
    obtain ⟨p, h1, h2, -⟩ := (h ω).data i hi
    obtain ⟨g, h3, h4⟩ := (h ω).result i hi
    exact ⟨g, p.1, h3, by simp [h1], ⟨_, h4.meanA, .inl rfl⟩, h2⟩
  · have e : ∀ ω, rootMeanSq ((List.range N).map fun i => (m ω i, x ω i)) ^ 2 = (∑ i ∈ Finset.range N, sqDist (m ω i) (x ω i)) / N := fun ω => by
      have hs : (((List.range N).map fun i => (m ω i, x ω i)).map fun p => sqDist p.1 p.2).sum = ∑ i ∈ Finset.range N, sqDist (m ω i) (x ω i) := by
        rw [List.map_map]
        exact sum_range_list _ N
      rw [rootMeanSq, Real.sq_sqrt, hs]
      · simp
      · rw [hs]
        exact div_nonneg (Finset.sum_nonneg fun i _ => Finset.sum_nonneg fun a _ => sq_nonneg _) (Nat.cast_nonneg _)
    simp only [e, sqDist]
    have hint : ∀ i ∈ Finset.range N, ∀ a ∈ Finset.univ, Integrable (fun ω => (m ω i a - x ω i a) ^ 2) ℙ := fun i hi a _ => by
      have := ((hcal i (Finset.mem_range.1 hi)).finite a).integrable_sq
      refine this.congr (.of_forall fun ω => ?_)
      show (x ω i a - m ω i a) ^ 2 = _
      ring
    rw [integral_div, integral_finsetSum _ fun i hi => integrable_finsetSum _ (hint i hi)]
    congr 1
    refine Finset.sum_congr rfl fun i hi => ?_
    rw [integral_finsetSum _ (hint i hi), trace]
    refine Finset.sum_congr rfl fun a _ => ?_
    rw [diag_apply, ← (hcal i (Finset.mem_range.1 hi)).cov a a]
    refine integral_congr_ae (.of_forall fun ω => ?_)
    show (m ω i a - x ω i a) ^ 2 = (x ω i a - m ω i a) * (x ω i a - m ω i a)
    ring

/-- **C85.** Calibrated results: the expected negative log likelihood of the true states is the mean of the entropies of normal
distributions with the reported covariances. -/
theorem C85_nll [IsProbabilityMeasure ℙ] (hN : 0 < N) (h : ∀ ω, Reports env N (data ω) (gs ω) (x ω) (y ω) (m ω) C)
    (hcal : ∀ i < N, (C i).PosDef ∧ Calibrated ℙ (fun ω => x ω i) (fun ω => m ω i) (C i)) (hS : ∀ i < N, Spread (C i)) :
    ∃ e : Ω → ℝ, (∀ ω, Metrics.nll env (gs ω) ((data ω).map Prod.fst) = .ok (e ω)) ∧
      ∫ ω, e ω ∂ℙ = (∑ i ∈ Finset.range N, (n * Real.log (2 * Real.pi) + Real.log (C i).det + n) / 2) / N := by
  set l : Ω → ℕ → ℝ := fun ω i =>
    (n * Real.log (2 * Real.pi) + Real.log (C i).det + (x ω i - m ω i) ⬝ᵥ (C i)⁻¹ *ᵥ (x ω i - m ω i)) / 2 with hl
  refine ⟨fun ω => (((List.range N).map (l ω)).sum / ((List.range N).map (l ω)).length), fun ω => ?_, ?_⟩
  · refine C64_average (zip_forall (h ω).length (by simp [(h ω).data_length]) (l ω) fun i hi => ?_) (by simp; omega)
    obtain ⟨p, h1, h2, -⟩ := (h ω).data i hi
    obtain ⟨g, h3, h4⟩ := (h ω).result i hi
    exact ⟨g, p.1, h3, by simp [h1], C64_formula h4 (hcal i hi).1 (hS i hi) h2⟩
  · have e : ∀ ω, (((List.range N).map (l ω)).sum / ((List.range N).map (l ω)).length) = (∑ i ∈ Finset.range N, l ω i) / N := fun ω => by
      rw [sum_range_list]
      simp
    simp only [e]
    have hq : ∀ i < N, ∀ ω, (x ω i - m ω i) ⬝ᵥ (C i)⁻¹ *ᵥ (x ω i - m ω i) =
        ∑ a, ∑ b, (C i)⁻¹ a b * ((x ω i a - m ω i a) * (x ω i b - m ω i b)) := fun i _ ω => by
      simp only [dotProduct, mulVec, Pi.sub_apply, Finset.mul_sum]
      exact Finset.sum_congr rfl fun a _ => Finset.sum_congr rfl fun b _ => by ring
    have hi0 : ∀ i < N, ∀ a b, Integrable (fun ω => (C i)⁻¹ a b * ((x ω i a - m ω i a) * (x ω i b - m ω i b))) ℙ := fun i hi a b =>
      (MemLp.integrable_mul ((hcal i hi).2.finite a) ((hcal i hi).2.finite b)).const_mul _
    have hi1 : ∀ i < N, Integrable (fun ω => (x ω i - m ω i) ⬝ᵥ (C i)⁻¹ *ᵥ (x ω i - m ω i)) ℙ := fun i hi => by
      simp only [hq i hi]
      exact integrable_finsetSum _ fun a _ => integrable_finsetSum _ fun b _ => hi0 i hi a b
    have hv : ∀ i < N, ∫ ω, (x ω i - m ω i) ⬝ᵥ (C i)⁻¹ *ᵥ (x ω i - m ω i) ∂ℙ = n := fun i hi => by
      simp only [hq i hi]
      rw [integral_finsetSum _ fun a _ => integrable_finsetSum _ fun b _ => hi0 i hi a b]
      have : ∀ a, ∫ ω, ∑ b, (C i)⁻¹ a b * ((x ω i a - m ω i a) * (x ω i b - m ω i b)) ∂ℙ = ((C i)⁻¹ * C i) a a := fun a => by
        rw [integral_finsetSum _ fun b _ => hi0 i hi a b, Matrix.mul_apply]
        refine Finset.sum_congr rfl fun b _ => ?_
        rw [integral_const_mul, (hcal i hi).2.cov a b]
        have := congrFun (congrFun (hcal i hi).1.1.eq b) a
        rw [conjTranspose_apply, star_trivial] at this
        rw [this]
      simp only [this, posDef_inv_mul (hcal i hi).1, Matrix.one_apply_eq]
      simp
    have hi2 : ∀ i ∈ Finset.range N, Integrable (fun ω => l ω i) ℙ := fun i hi =>
      ((integrable_const _).add (hi1 i (Finset.mem_range.1 hi))).div_const 2
    rw [integral_div, integral_finsetSum _ hi2]
    congr 1
    refine Finset.sum_congr rfl fun i hi => ?_
    simp only [hl]
    rw [integral_div, integral_add (integrable_const _) (hi1 i (Finset.mem_range.1 hi)), hv i (Finset.mem_range.1 hi)]
    simp

end Scores

/-! ## Normal draws -/

open scoped MatrixOrder in
private theorem exists_root {p : ℕ} {C : Matrix (Fin p) (Fin p) ℝ} (h : C.PosSemidef) : ∃ B : Matrix (Fin p) (Fin p) ℝ, C = Bᵀ * B := by
  obtain ⟨B, hB⟩ := CStarAlgebra.nonneg_iff_eq_star_mul_self.mp h.nonneg
  exact ⟨B, hB⟩

open Classical in
/-- Call `j` returns `μ + Bᵀ z` with a root `B` of the covariance, `Bᵀ B = C`, and numbers `z` of its own. -/
noncomputable def drawsFrom (z : ℕ × ℕ → ℝ) : Rng := fun j _ μ C a =>
  if h : C.PosSemidef then μ a + ∑ b, Classical.choose (exists_root h) b a * z (j, b) else 0

theorem drawsFrom_eq (j : ℕ) {p : ℕ} (μ : Fin p → ℝ) {C : Matrix (Fin p) (Fin p) ℝ} (h : C.PosSemidef) (a : Fin p) :
    ∃ f : Fin p → ℝ, ∀ z, drawsFrom z j p μ C a = μ a + ∑ b, f b * z (j, b) :=
  ⟨fun b => Classical.choose (exists_root h) b a, fun _ => dif_pos h⟩

/-- Independent standard normal numbers. -/
noncomputable abbrev standardNormals : Measure (ℕ × ℕ → ℝ) := Measure.infinitePi fun _ => ProbabilityTheory.gaussianReal 0 1

private theorem memLp_coord (s : ℕ × ℕ) : MemLp (fun z : ℕ × ℕ → ℝ => z s) 2 standardNormals :=
  (ProbabilityTheory.memLp_id_gaussianReal' 2 (by norm_num)).comp_measurePreserving
    (measurePreserving_eval_infinitePi (fun _ : ℕ × ℕ => ProbabilityTheory.gaussianReal 0 1) s)

private theorem integral_coord (s : ℕ × ℕ) : ∫ z, z s ∂standardNormals = 0 := by
  rw [← integral_map (φ := fun z : ℕ × ℕ → ℝ => z s) (f := fun x => x) (measurable_pi_apply s).aemeasurable (by fun_prop),
    Measure.infinitePi_map_eval]
  exact ProbabilityTheory.integral_id_gaussianReal

private theorem integral_coord_mul (s t : ℕ × ℕ) : ∫ z, z s * z t ∂standardNormals = if s = t then 1 else 0 := by
  split_ifs with h
  · subst h
    rw [← integral_map (φ := fun z : ℕ × ℕ → ℝ => z s) (f := fun x => x * x) (measurable_pi_apply s).aemeasurable (by fun_prop),
      Measure.infinitePi_map_eval]
    have := ProbabilityTheory.variance_fun_id_gaussianReal (μ := 0) (v := 1)
    rw [ProbabilityTheory.variance_eq_integral (by fun_prop)] at this
    simp only [ProbabilityTheory.integral_id_gaussianReal, sub_zero, sq] at this
    simpa using this
  · have hi := (ProbabilityTheory.iIndepFun_infinitePi (P := fun _ : ℕ × ℕ => ProbabilityTheory.gaussianReal 0 1)
      (X := fun _ x => x) (fun _ => measurable_id)).indepFun h
    rw [hi.integral_fun_mul_eq_mul_integral (memLp_coord s).1 (memLp_coord t).1, integral_coord, zero_mul]

/-- **C85.** Vectors made from independent standard normal numbers and roots of the covariances satisfy what is assumed of the draws. -/
theorem C85_normal_draws : FairDraws standardNormals drawsFrom := by
  have e : ∀ z j p (μ : Fin p → ℝ) C (h : C.PosSemidef) a, drawsFrom z j p μ C a = μ a + ∑ b, Classical.choose (exists_root h) b a * z (j, b) :=
    fun z j p μ C h a => dif_pos h
  have hs : ∀ j p (f : Fin p → ℝ), MemLp (fun z : ℕ × ℕ → ℝ => ∑ b, f b * z (j, b)) 2 standardNormals := fun j p f =>
    memLp_finsetSum _ fun b _ => (memLp_coord (j, b)).const_mul (f b)
  have hm : ∀ j j' p p' (f : Fin p → ℝ) (g : Fin p' → ℝ), ∫ z : ℕ × ℕ → ℝ, (∑ b, f b * z (j, b)) * (∑ b, g b * z (j', b)) ∂standardNormals =
      ∑ b, ∑ b', f b * g b' * if (j, (b : ℕ)) = (j', (b' : ℕ)) then 1 else 0 := fun j j' p p' f g => by
    have hi : ∀ (b : Fin p) (b' : Fin p'), Integrable (fun z : ℕ × ℕ → ℝ => f b * g b' * (z (j, b) * z (j', b'))) standardNormals := fun b b' =>
      (MemLp.integrable_mul (memLp_coord (j, b)) (memLp_coord (j', b'))).const_mul _
    have : ∀ z : ℕ × ℕ → ℝ, (∑ b, f b * z (j, b)) * (∑ b, g b * z (j', b)) = ∑ b, ∑ b', f b * g b' * (z (j, b) * z (j', b')) := fun z => by
      rw [Finset.sum_mul_sum]
      exact Finset.sum_congr rfl fun b _ => Finset.sum_congr rfl fun b' _ => by ring
    simp only [this]
    rw [integral_finsetSum _ fun b _ => integrable_finsetSum _ fun b' _ => hi b b']
    refine Finset.sum_congr rfl fun b _ => ?_
    rw [integral_finsetSum _ fun b' _ => hi b b']
    refine Finset.sum_congr rfl fun b' _ => ?_
    rw [integral_const_mul, integral_coord_mul]
  have hz : ∀ j p (f : Fin p → ℝ), ∫ z : ℕ × ℕ → ℝ, ∑ b, f b * z (j, b) ∂standardNormals = 0 := fun j p f => by
    rw [integral_finsetSum _ fun (b : Fin p) _ => ((memLp_coord (j, b)).integrable (by norm_num)).const_mul (f b)]
    simp [integral_const_mul, integral_coord]
  refine ⟨fun j p μ C hC a => ?_, fun j p μ C hC a => ?_, fun j p μ C hC a b => ?_, fun j j' hj p μ C p' μ' C' hC hC' a b => ?_⟩
  · simp only [e _ _ _ _ _ hC]
    exact MemLp.add (f := fun _ => μ a) (g := fun z : ℕ × ℕ → ℝ => ∑ b, Classical.choose (exists_root hC) b a * z (j, b))
      (memLp_const (μ a)) (hs j p fun b => Classical.choose (exists_root hC) b a)
  · simp only [e _ _ _ _ _ hC]
    rw [integral_add (integrable_const _) ((hs j p fun b => Classical.choose (exists_root hC) b a).integrable (by norm_num)),
      hz j p fun b => Classical.choose (exists_root hC) b a]
    simp
  · simp only [e _ _ _ _ _ hC, add_sub_cancel_left]
    rw [hm j j p p (fun c => Classical.choose (exists_root hC) c a) fun c => Classical.choose (exists_root hC) c b]
    conv_rhs => rw [Classical.choose_spec (exists_root hC), Matrix.mul_apply]
    refine Finset.sum_congr rfl fun c _ => ?_
    rw [transpose_apply]
    simp [Fin.val_inj]
  · simp only [e _ _ _ _ _ hC, e _ _ _ _ _ hC', add_sub_cancel_left]
    rw [hm j j' p p' (fun c => Classical.choose (exists_root hC) c a) fun c => Classical.choose (exists_root hC') c b]
    simp [hj]

/-! ## Examples -/

/-- The constant velocity model of `demoKFS`. -/
noncomputable def velocitySys : Sys where
  transition := affineSys !![1, 2; 0, 1] ![5, 6]
  measurement := affineSys !![1, 0] ![1]
  Q := .m (diagonal ![1, 1])
  R := .m (diagonal fun _ : Fin 1 => 1)
  initState := Gaussian.ofMoment (.v ![1, 1]) (.m (diagonal ![2, 3]))
  dt := 1

theorem affine_pointMap (A : Matrix (Fin k) (Fin n) ℝ) (b : Fin k → ℝ) (t u : Option ℝ) :
    PointMap false Set.univ (fun x => affineSys A b x t u) fun x => A *ᵥ x + b := by
  rintro a x (rfl | rfl) -
  · exact ⟨_, affineFunc_vec A b x, rfl⟩
  · exact ⟨_, affineFunc_vec A b x, rfl⟩

/-- One hundred steps of the extended Kalman filter and smoother on simulated normal data: the expected squared error of the smoothed
states is the mean trace of the covariances it reports. -/
example : ∃ (data : (ℕ × ℕ → ℝ) → List (Arr × Arr)) (fs rs : (ℕ × ℕ → ℝ) → List Gaussian) (C : ℕ → Matrix (Fin 2) (Fin 2) ℝ) (e : (ℕ × ℕ → ℝ) → ℝ),
    (∀ z, simData calmEnv (drawsFrom z) 2 1 velocitySys 100 = .ok (data z) ∧
      (KFS.init (taylorTransform calmEnv exactJac) velocitySys none).kalmanFilter calmEnv ((data z).map Prod.snd) none 0 none = .ok (fs z) ∧
      (KFS.init (taylorTransform calmEnv exactJac) velocitySys none).kalmanSmoother calmEnv (fs z) none = .ok (rs z) ∧
      (∀ i < 100, ∃ g m, (rs z)[i]? = some g ∧ HasMoments calmEnv g m (C i)) ∧ (∀ i < 100, (C i).PosDef) ∧
      Metrics.rmse calmEnv (rs z) ((data z).map Prod.fst) = .ok (e z)) ∧
      ∫ z, e z ^ 2 ∂standardNormals = (∑ i ∈ Finset.range 100, (C i).trace) / 100 := by
  obtain ⟨data, fs, rs, x, y, m, C, h1, h2⟩ := C85_smoother (A := fun _ => !![1, 2; 0, 1]) (b := fun _ => ![5, 6]) (H := !![1, 0]) (c := ![1])
    (row := false) C85_normal_draws demoSpace_good (sys := velocitySys)
    demo_describes (fun _ => rfl) (fun _ => rfl) (fun _ => rfl) (fun _ => rfl) (fun t => affine_pointMap _ _ (some t) none)
    (affine_pointMap _ _ none none) (N := 100) (by norm_num)
  obtain ⟨e, h3, h4⟩ := C85_rmse (by norm_num) (fun z => (h1 z).2.2.2) fun i hi => (h2 i hi).2.1
  refine ⟨data, fs, rs, C, e, fun z => ⟨(h1 z).1, (h1 z).2.1, (h1 z).2.2.1, fun i hi => ?_, fun i hi => (h2 i hi).1, h3 z⟩, by rw [h4]; norm_num⟩
  obtain ⟨g, h5, h6⟩ := (h1 z).2.2.2.result i hi
  exact ⟨g, _, h5, h6⟩

end Verif
