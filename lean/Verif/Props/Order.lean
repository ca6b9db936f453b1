import Verif.Lemmas.Order

/-!
# C86: comparison of the reported covariances
-/

namespace Verif

open Matrix MeasureTheory

variable {n k k' : ℕ} {env : Env}

/-! ## Covariances assumed larger than they are -/

section Conservative

variable {Ω : Type*} [MeasurableSpace Ω] {ℙ : Measure Ω} [IsProbabilityMeasure ℙ] {rng : Ω → Rng} {row : Bool} {sys : Sys} {K : KFS}
  {L : StateSpace n k} {A : ℝ → Matrix (Fin n) (Fin n) ℝ} {b : ℝ → Fin n → ℝ} {H : Matrix (Fin k) (Fin n) ℝ} {c : Fin k → ℝ}
  {P Q : Matrix (Fin n) (Fin n) ℝ} {R : Matrix (Fin k) (Fin k) ℝ}

omit [IsProbabilityMeasure ℙ] in
private theorem conservative_of {x m : Ω → Fin n → ℝ} {C : Matrix (Fin n) (Fin n) ℝ} (h1 : SqInt ℙ (fun ω => x ω - m ω))
    (h2 : cross ℙ (fun ω => x ω - m ω) unit1 = 0) (h3 : Below (cross ℙ (fun ω => x ω - m ω) fun ω => x ω - m ω) C) : Conservative ℙ x m C := by
  refine ⟨h1, fun a => ?_, fun u => ?_⟩
  · have : ∫ ω, (x ω a - m ω a) * 1 ∂ℙ = 0 := congrFun (congrFun h2 a) 0
    simpa using this
  · rw [← StateSpace.Path.quad_cross h1 u]
    exact h3 u

omit [IsProbabilityMeasure ℙ] in
private theorem overconfident_of {x m : Ω → Fin n → ℝ} {C : Matrix (Fin n) (Fin n) ℝ} (h1 : SqInt ℙ (fun ω => x ω - m ω))
    (h2 : cross ℙ (fun ω => x ω - m ω) unit1 = 0) (h3 : Below C (cross ℙ (fun ω => x ω - m ω) fun ω => x ω - m ω)) : Overconfident ℙ x m C := by
  refine ⟨h1, fun a => ?_, fun u => ?_⟩
  · have : ∫ ω, (x ω a - m ω a) * 1 ∂ℙ = 0 := congrFun (congrFun h2 a) 0
    simpa using this
  · rw [← StateSpace.Path.quad_cross h1 u]
    exact h3 u

/-- The data that `L` describes. -/
private theorem sim_data (hfair : FairDraws ℙ rng) (hP : L.P0.PosSemidef) (hQ : L.Q.PosSemidef) (hR : L.R.PosSemidef)
    (hprior : HasMoments env sys.initState L.m0 L.P0) (hsQ : sys.Q = .m L.Q) (hsR : sys.R = .m L.R)
    (hA : ∀ i : ℕ, L.A i = A (i * sys.dt)) (hb : ∀ i : ℕ, L.b i = b (i * sys.dt)) (hH : ∀ i, L.H i = H) (hc : ∀ i, L.c i = c)
    (htr : ∀ t, PointMap row Set.univ (fun x => sys.transition x (some t) none) fun x => A t *ᵥ x + b t)
    (hme : PointMap row Set.univ (fun x => sys.measurement x none none) fun x => H *ᵥ x + c) (N : ℕ) :
    ∃ (data : Ω → List (Arr × Arr)) (x q : ℕ → Ω → Fin n → ℝ) (r : ℕ → Ω → Fin k → ℝ) (y : Ω → ℕ → Fin k → ℝ), L.Path ℙ x q r y ∧
      ∀ ω, simData env (rng ω) n k sys N = .ok (data ω) ∧ (data ω).length = N ∧
        ∀ i p, (data ω)[i]? = some p → IsPoint p.1 (x (i + 1) ω) ∧ IsPoint p.2 (y ω i) := by
  have hpath := hfair.path hP hQ hR hA hb hH hc
  have hsim := fun ω => C78_simulate (env := env) (row := row) (sys := sys) (L := (⟨L.m0, L.P0, L.Q, L.R⟩ : Laws n k)) hprior hsQ hsR htr hme
    (rng ω) N fun _ _ => trivial
  choose data hdata hfol using hsim
  exact ⟨data, _, _, _, _, hpath, fun ω => ⟨hdata ω, (hfol ω).length, fun i p hp =>
    ⟨((hfol ω).state i p hp).isPoint, ((hfol ω).measurement i p hp).isPoint⟩⟩⟩

/-- **C86.** Simulate a linear system and filter the measurements with a filter that has the right maps and the right prior mean, but
assumes covariances of the prior, of the process noise and of the measurement noise at least as large as the true ones; the true ones may
be singular, even zero. Every estimate has an error of mean zero, and no linear combination of the error has a mean square above the one
that the filter reports. If instead the assumed covariances are at most the true ones, no linear combination has a mean square below the
one that the filter reports. -/
theorem C86_mismatch_filter (hfair : FairDraws ℙ rng) (hP : L.P0.PosSemidef) (hQ : L.Q.PosSemidef) (hR : L.R.PosSemidef)
    (hprior : HasMoments env sys.initState L.m0 L.P0) (hsQ : sys.Q = .m L.Q) (hsR : sys.R = .m L.R)
    (hA : ∀ i : ℕ, L.A i = A (i * sys.dt)) (hb : ∀ i : ℕ, L.b i = b (i * sys.dt)) (hH : ∀ i, L.H i = H) (hc : ∀ i, L.c i = c)
    (htr : ∀ t, PointMap row Set.univ (fun x => sys.transition x (some t) none) fun x => A t *ᵥ x + b t)
    (hme : PointMap row Set.univ (fun x => sys.measurement x none none) fun x => H *ᵥ x + c)
    (hL : (L.withNoise P Q R).Good) (hK : Describes env K none 0 K.initState (L.withNoise P Q R))
    (N : ℕ) :
    ∃ (data : Ω → List (Arr × Arr)) (fs : Ω → List Gaussian) (x : Ω → ℕ → Fin n → ℝ) (y : Ω → ℕ → Fin k → ℝ) (m : Ω → ℕ → Fin n → ℝ)
      (C : ℕ → Matrix (Fin n) (Fin n) ℝ),
      (∀ ω, simData env (rng ω) n k sys N = .ok (data ω) ∧ K.kalmanFilter env ((data ω).map Prod.snd) none 0 none = .ok (fs ω) ∧
        Reports env N (data ω) (fs ω) (x ω) (y ω) (m ω) C) ∧
      ∀ i < N, (C i).PosDef ∧
        (Below L.P0 P → Below L.Q Q → Below L.R R → Conservative ℙ (fun ω => x ω i) (fun ω => m ω i) (C i)) ∧
        (Below P L.P0 → Below Q L.Q → Below R L.R → Overconfident ℙ (fun ω => x ω i) (fun ω => m ω i) (C i)) := by
  obtain ⟨data, x, q, r, y, hpath, hd⟩ := sim_data (env := env) hfair hP hQ hR hprior hsQ hsR hA hb hH hc htr hme N
  have hvec : ∀ ω i a, ((data ω).map Prod.snd)[i]? = some a → IsVec a.squeeze (y ω i) := fun ω i a ha => by
    rw [List.getElem?_map, Option.map_eq_some_iff] at ha
    obtain ⟨p, hp, rfl⟩ := ha
    exact ((hd ω).2.2 i p hp).2.isVec
  have hN : ∀ ω, (List.map Prod.snd (data ω)).length = N := fun ω => by rw [List.length_map, (hd ω).2.1]
  have hflt := fun ω => Describes.filter (prior := none) hL hK (hvec ω)
  choose fs hrun hlen hres using hflt
  refine ⟨data, fs, fun ω i => x (i + 1) ω, y, fun ω i => ((L.withNoise P Q R).smth (y ω) (i + 1) 0).1,
    fun i => ((L.withNoise P Q R).smth 0 (i + 1) 0).2, fun ω =>
    ⟨(hd ω).1, hrun ω, (hd ω).2.1, (hlen ω).trans (hN ω), fun i hi => ?_, fun i hi => ?_⟩, fun i hi =>
    have hm := hpath.mismatch hL 0 (i + 1)
    ⟨hL.smth _ (i + 1), fun h1 h2 h3 => conservative_of hm.1 hm.2.1 (hm.2.2.1 h1 h2 h3),
      fun h1 h2 h3 => overconfident_of hm.1 hm.2.1 (hm.2.2.2 h1 h2 h3)⟩⟩
  · have hi' : i < (data ω).length := by rw [(hd ω).2.1]; exact hi
    exact ⟨_, List.getElem?_eq_getElem hi', (hd ω).2.2 i _ (List.getElem?_eq_getElem hi')⟩
  · obtain ⟨g, h1, h2⟩ := hres ω i (by rw [hN]; exact hi)
    rw [StateSpace.filt_cov' _ (y ω) 0] at h2
    exact ⟨g, h1, h2⟩

/-- **C86.** The same for the smoother. -/
theorem C86_mismatch_smoother (hfair : FairDraws ℙ rng) (hP : L.P0.PosSemidef) (hQ : L.Q.PosSemidef) (hR : L.R.PosSemidef)
    (hprior : HasMoments env sys.initState L.m0 L.P0) (hsQ : sys.Q = .m L.Q) (hsR : sys.R = .m L.R)
    (hA : ∀ i : ℕ, L.A i = A (i * sys.dt)) (hb : ∀ i : ℕ, L.b i = b (i * sys.dt)) (hH : ∀ i, L.H i = H) (hc : ∀ i, L.c i = c)
    (htr : ∀ t, PointMap row Set.univ (fun x => sys.transition x (some t) none) fun x => A t *ᵥ x + b t)
    (hme : PointMap row Set.univ (fun x => sys.measurement x none none) fun x => H *ᵥ x + c)
    (hL : (L.withNoise P Q R).Good) (hK : Describes env K none 0 K.initState (L.withNoise P Q R))
    {N : ℕ} (hN0 : 0 < N) :
    ∃ (data : Ω → List (Arr × Arr)) (fs rs : Ω → List Gaussian) (x : Ω → ℕ → Fin n → ℝ) (y : Ω → ℕ → Fin k → ℝ) (m : Ω → ℕ → Fin n → ℝ)
      (C : ℕ → Matrix (Fin n) (Fin n) ℝ),
      (∀ ω, simData env (rng ω) n k sys N = .ok (data ω) ∧ K.kalmanFilter env ((data ω).map Prod.snd) none 0 none = .ok (fs ω) ∧
        K.kalmanSmoother env (fs ω) none = .ok (rs ω) ∧ Reports env N (data ω) (rs ω) (x ω) (y ω) (m ω) C) ∧
      ∀ i < N, (C i).PosDef ∧
        (Below L.P0 P → Below L.Q Q → Below L.R R → Conservative ℙ (fun ω => x ω i) (fun ω => m ω i) (C i)) ∧
        (Below P L.P0 → Below Q L.Q → Below R L.R → Overconfident ℙ (fun ω => x ω i) (fun ω => m ω i) (C i)) := by
  obtain ⟨data, x, q, r, y, hpath, hd⟩ := sim_data (env := env) hfair hP hQ hR hprior hsQ hsR hA hb hH hc htr hme N
  have hvec : ∀ ω i a, ((data ω).map Prod.snd)[i]? = some a → IsVec a.squeeze (y ω i) := fun ω i a ha => by
    rw [List.getElem?_map, Option.map_eq_some_iff] at ha
    obtain ⟨p, hp, rfl⟩ := ha
    exact ((hd ω).2.2 i p hp).2.isVec
  have hN : ∀ ω, (List.map Prod.snd (data ω)).length = N := fun ω => by rw [List.length_map, (hd ω).2.1]
  have hflt := fun ω => Describes.smoother (prior := none) hL hK (hvec ω) (List.length_pos_iff.1 (by rw [hN]; exact hN0))
  choose fs rs hrun hrun' hlen hres using hflt
  refine ⟨data, fs, rs, fun ω i => x (i + 1) ω, y, fun ω i => ((L.withNoise P Q R).smth (y ω) (i + 1) (N - (i + 1))).1,
    fun i => ((L.withNoise P Q R).smth 0 (i + 1) (N - (i + 1))).2, fun ω =>
    ⟨(hd ω).1, hrun ω, hrun' ω, (hd ω).2.1, (hlen ω).trans (hN ω), fun i hi => ?_, fun i hi => ?_⟩, fun i hi =>
    have hm := hpath.mismatch hL _ (i + 1)
    ⟨hL.smth _ (i + 1), fun h1 h2 h3 => conservative_of hm.1 hm.2.1 (hm.2.2.1 h1 h2 h3),
      fun h1 h2 h3 => overconfident_of hm.1 hm.2.1 (hm.2.2.2 h1 h2 h3)⟩⟩
  · have hi' : i < (data ω).length := by rw [(hd ω).2.1]; exact hi
    exact ⟨_, List.getElem?_eq_getElem hi', (hd ω).2.2 i _ (List.getElem?_eq_getElem hi')⟩
  · obtain ⟨g, h1, h2⟩ := hres ω i (by rw [hN]; exact hi)
    rw [hN, StateSpace.smth_cov' _ (y ω) 0] at h2
    exact ⟨g, h1, h2⟩

end Conservative

/-! ## Two runs -/

/-- Two runs of `N` steps whose reported covariances are ordered: at every step those of the first are below those of the second. -/
def ReportsBelow (env : Env) (n N : ℕ) (gs gs' : List Gaussian) : Prop :=
  gs.length = N ∧ gs'.length = N ∧ ∀ i < N, ∃ (g g' : Gaussian) (m m' : Fin n → ℝ) (C C' : Matrix (Fin n) (Fin n) ℝ),
    gs[i]? = some g ∧ gs'[i]? = some g' ∧ HasMoments env g m C ∧ HasMoments env g' m' C' ∧ Below C C'

variable {K K' : KFS} {u : Option ℝ} {prior prior' : Option Gaussian} {t₀ : ℝ} {L : StateSpace n k} {ys ys' : List Arr} {y : ℕ → Fin k → ℝ}

private theorem filters_below {L' : StateSpace n k'} {y' : ℕ → Fin k' → ℝ} (hL : L.Good) (hL' : L'.Good)
    (hK : Describes env K u t₀ (prior.getD K.initState) L) (hK' : Describes env K' u t₀ (prior'.getD K'.initState) L')
    (hy : ∀ i a, ys[i]? = some a → IsVec a.squeeze (y i)) (hy' : ∀ i a, ys'[i]? = some a → IsVec a.squeeze (y' i)) (hlen : ys'.length = ys.length)
    (h : ∀ i, Below (L.smth 0 i 0).2 (L'.smth 0 i 0).2) :
    ∃ fs fs', K.kalmanFilter env ys prior t₀ u = .ok fs ∧ K'.kalmanFilter env ys' prior' t₀ u = .ok fs' ∧
      ReportsBelow env n ys.length fs fs' := by
  obtain ⟨fs, h1, h2, h3⟩ := hK.filter hL hy
  obtain ⟨fs', h1', h2', h3'⟩ := hK'.filter hL' hy'
  refine ⟨fs, fs', h1, h1', h2, h2'.trans hlen, fun i hi => ?_⟩
  obtain ⟨g, h4, h5⟩ := h3 i hi
  obtain ⟨g', h4', h5'⟩ := h3' i (by omega)
  refine ⟨g, g', _, _, _, _, h4, h4', h5, h5', ?_⟩
  rw [L.filt_cov' y 0, L'.filt_cov' y' 0]
  exact h (i + 1)

private theorem smoothers_below {L' : StateSpace n k'} {y' : ℕ → Fin k' → ℝ} (hL : L.Good) (hL' : L'.Good)
    (hK : Describes env K u 0 (prior.getD K.initState) L) (hK' : Describes env K' u 0 (prior'.getD K'.initState) L')
    (hy : ∀ i a, ys[i]? = some a → IsVec a.squeeze (y i)) (hy' : ∀ i a, ys'[i]? = some a → IsVec a.squeeze (y' i)) (hlen : ys'.length = ys.length)
    (hne : ys ≠ []) (h : ∀ d i, Below (L.smth 0 i d).2 (L'.smth 0 i d).2) :
    ∃ fs fs' rs rs', K.kalmanFilter env ys prior 0 u = .ok fs ∧ K'.kalmanFilter env ys' prior' 0 u = .ok fs' ∧
      K.kalmanSmoother env fs u = .ok rs ∧ K'.kalmanSmoother env fs' u = .ok rs' ∧ ReportsBelow env n ys.length rs rs' := by
  obtain ⟨fs, rs, h0, h1, h2, h3⟩ := hK.smoother hL hy hne
  obtain ⟨fs', rs', h0', h1', h2', h3'⟩ := hK'.smoother hL' hy' (List.length_pos_iff.1 (by rw [hlen]; exact List.length_pos_iff.2 hne))
  refine ⟨fs, fs', rs, rs', h0, h0', h1, h1', h2, h2'.trans hlen, fun i hi => ?_⟩
  obtain ⟨g, h4, h5⟩ := h3 i hi
  obtain ⟨g', h4', h5'⟩ := h3' i (by omega)
  refine ⟨g, g', _, _, _, _, h4, h4', h5, h5', ?_⟩
  rw [L.smth_cov' y 0, L'.smth_cov' y' 0, hlen]
  exact h _ (i + 1)

/-- **C86.** On a linear system larger covariances of prior, process noise and measurement noise never lead to smaller reported
covariances, whatever the measurements of the two runs are. -/
theorem C86_monotone_filter {P Q : Matrix (Fin n) (Fin n) ℝ} {R : Matrix (Fin k) (Fin k) ℝ} {y' : ℕ → Fin k → ℝ} (hL : L.Good)
    (hL' : (L.withNoise P Q R).Good) (hP : Below L.P0 P) (hQ : Below L.Q Q) (hR : Below L.R R)
    (hK : Describes env K u t₀ (prior.getD K.initState) L) (hK' : Describes env K' u t₀ (prior'.getD K'.initState) (L.withNoise P Q R))
    (hy : ∀ i a, ys[i]? = some a → IsVec a.squeeze (y i)) (hy' : ∀ i a, ys'[i]? = some a → IsVec a.squeeze (y' i)) (hlen : ys'.length = ys.length) :
    ∃ fs fs', K.kalmanFilter env ys prior t₀ u = .ok fs ∧ K'.kalmanFilter env ys' prior' t₀ u = .ok fs' ∧
      ReportsBelow env n ys.length fs fs' :=
  filters_below hL hL' hK hK' hy hy' hlen fun i => hL.monotone hL' hP hQ hR 0 i

/-- **C86.** The same for the smoother. -/
theorem C86_monotone_smoother {P Q : Matrix (Fin n) (Fin n) ℝ} {R : Matrix (Fin k) (Fin k) ℝ} {y' : ℕ → Fin k → ℝ} (hL : L.Good)
    (hL' : (L.withNoise P Q R).Good) (hP : Below L.P0 P) (hQ : Below L.Q Q) (hR : Below L.R R)
    (hK : Describes env K u 0 (prior.getD K.initState) L) (hK' : Describes env K' u 0 (prior'.getD K'.initState) (L.withNoise P Q R))
    (hy : ∀ i a, ys[i]? = some a → IsVec a.squeeze (y i)) (hy' : ∀ i a, ys'[i]? = some a → IsVec a.squeeze (y' i)) (hlen : ys'.length = ys.length)
    (hne : ys ≠ []) :
    ∃ fs fs' rs rs', K.kalmanFilter env ys prior 0 u = .ok fs ∧ K'.kalmanFilter env ys' prior' 0 u = .ok fs' ∧
      K.kalmanSmoother env fs u = .ok rs ∧ K'.kalmanSmoother env fs' u = .ok rs' ∧ ReportsBelow env n ys.length rs rs' :=
  smoothers_below hL hL' hK hK' hy hy' hlen hne fun d i => hL.monotone hL' hP hQ hR d i

/-- **C86.** On a linear system a run that records all components of the measurements never reports larger covariances than one that
records only some of them. -/
theorem C86_sensors_filter {s : Fin k' → Fin k} {y' : ℕ → Fin k' → ℝ} (hL : L.Good) (hL' : (L.withSensors s).Good)
    (hK : Describes env K u t₀ (prior.getD K.initState) L) (hK' : Describes env K' u t₀ (prior'.getD K'.initState) (L.withSensors s))
    (hy : ∀ i a, ys[i]? = some a → IsVec a.squeeze (y i)) (hy' : ∀ i a, ys'[i]? = some a → IsVec a.squeeze (y' i)) (hlen : ys'.length = ys.length) :
    ∃ fs fs', K.kalmanFilter env ys prior t₀ u = .ok fs ∧ K'.kalmanFilter env ys' prior' t₀ u = .ok fs' ∧
      ReportsBelow env n ys.length fs fs' :=
  filters_below hL hL' hK hK' hy hy' hlen fun i => hL.sensors hL' 0 i

/-- **C86.** The same for the smoother. -/
theorem C86_sensors_smoother {s : Fin k' → Fin k} {y' : ℕ → Fin k' → ℝ} (hL : L.Good) (hL' : (L.withSensors s).Good)
    (hK : Describes env K u 0 (prior.getD K.initState) L) (hK' : Describes env K' u 0 (prior'.getD K'.initState) (L.withSensors s))
    (hy : ∀ i a, ys[i]? = some a → IsVec a.squeeze (y i)) (hy' : ∀ i a, ys'[i]? = some a → IsVec a.squeeze (y' i)) (hlen : ys'.length = ys.length)
    (hne : ys ≠ []) :
    ∃ fs fs' rs rs', K.kalmanFilter env ys prior 0 u = .ok fs ∧ K'.kalmanFilter env ys' prior' 0 u = .ok fs' ∧
      K.kalmanSmoother env fs u = .ok rs ∧ K'.kalmanSmoother env fs' u = .ok rs' ∧ ReportsBelow env n ys.length rs rs' :=
  smoothers_below hL hL' hK hK' hy hy' hlen hne fun d i => hL.sensors hL' d i

/-- **C86.** On a linear system later measurements never enlarge the covariances that the smoother reports for the earlier states, and
the smoother never reports a larger covariance than the filter. -/
theorem C86_more_data (hL : L.Good) (hK : Describes env K u 0 (prior.getD K.initState) L) {zs : List Arr}
    (hy : ∀ i a, (ys ++ zs)[i]? = some a → IsVec a.squeeze (y i)) (hne : ys ≠ []) :
    ∃ fs fs' rs rs', K.kalmanFilter env ys prior 0 u = .ok fs ∧ K.kalmanFilter env (ys ++ zs) prior 0 u = .ok fs' ∧
      K.kalmanSmoother env fs u = .ok rs ∧ K.kalmanSmoother env fs' u = .ok rs' ∧
      ReportsBelow env n ys.length (rs'.take ys.length) rs ∧ ReportsBelow env n ys.length rs fs := by
  have hy0 : ∀ i a, ys[i]? = some a → IsVec a.squeeze (y i) := fun i a ha =>
    hy i a (by rw [List.getElem?_append_left (List.getElem?_eq_some_iff.1 ha).1]; exact ha)
  obtain ⟨fs, rs, h0, h1, h2, h3⟩ := hK.smoother hL hy0 hne
  obtain ⟨fs', rs', h0', h1', h2', h3'⟩ := hK.smoother hL hy (by simp [hne])
  obtain ⟨gs, e, h4, h5⟩ := hK.filter hL hy0
  obtain rfl : fs = gs := Except.ok.inj (h0.symm.trans e)
  have hlen : ys.length ≤ (ys ++ zs).length := by simp
  refine ⟨fs, fs', rs, rs', h0, h0', h1, h1', ⟨by rw [List.length_take, h2']; omega, h2, fun i hi => ?_⟩, h2, h4, fun i hi => ?_⟩
  · obtain ⟨g, h6, h7⟩ := h3 i hi
    obtain ⟨g', h6', h7'⟩ := h3' i (by omega)
    refine ⟨g', g, _, _, _, _, by rw [List.getElem?_take_of_lt hi]; exact h6', h6, h7', h7, ?_⟩
    rw [L.smth_cov' y 0, L.smth_cov' y 0]
    exact hL.longer (i + 1) (by omega)
  · obtain ⟨g, h6, h7⟩ := h3 i hi
    obtain ⟨g', h6', h7'⟩ := h5 i hi
    refine ⟨g, g', _, _, _, _, h6, h6', h7, h7', ?_⟩
    rw [L.smth_cov' y 0, L.filt_cov' y 0]
    have := hL.longer (i + 1) (Nat.zero_le (ys.length - (i + 1)))
    exact this

/-! ## Examples -/

private theorem below_zero {C : Matrix (Fin n) (Fin n) ℝ} (h : C.PosDef) : Below 0 C := fun u => by
  have := h.posSemidef.dotProduct_mulVec_nonneg u
  simpa using this

/-- The constant velocity model without any process noise and with a known initial state. -/
noncomputable def calmSpace : StateSpace 2 1 := { demoSpace with P0 := 0, Q := 0 }
noncomputable def calmVelocitySys : Sys := { velocitySys with Q := .m (0 : Matrix (Fin 2) (Fin 2) ℝ), initState := Gaussian.ofMoment (.v ![1, 1]) (.m (0 : Matrix (Fin 2) (Fin 2) ℝ)) }

/-- A filter that assumes process noise where there is none, on one hundred simulated measurements. -/
example : ∃ (data : (ℕ × ℕ → ℝ) → List (Arr × Arr)) (fs : (ℕ × ℕ → ℝ) → List Gaussian) (x : (ℕ × ℕ → ℝ) → ℕ → Fin 2 → ℝ)
    (y : (ℕ × ℕ → ℝ) → ℕ → Fin 1 → ℝ) (m : (ℕ × ℕ → ℝ) → ℕ → Fin 2 → ℝ) (C : ℕ → Matrix (Fin 2) (Fin 2) ℝ),
    (∀ z, simData calmEnv (drawsFrom z) 2 1 calmVelocitySys 100 = .ok (data z) ∧
      (KFS.init (taylorTransform calmEnv exactJac) velocitySys none).kalmanFilter calmEnv ((data z).map Prod.snd) none 0 none = .ok (fs z) ∧
      Reports calmEnv 100 (data z) (fs z) (x z) (y z) (m z) C) ∧
    ∀ i < 100, Conservative standardNormals (fun z => x z i) (fun z => m z i) (C i) := by
  obtain ⟨data, fs, x, y, m, C, h1, h2⟩ := C86_mismatch_filter (A := fun _ => !![1, 2; 0, 1]) (b := fun _ => ![5, 6]) (H := !![1, 0]) (c := ![1])
    (row := false) (L := calmSpace) (P := demoSpace.P0) (Q := demoSpace.Q) (R := demoSpace.R) (sys := calmVelocitySys) (env := calmEnv)
    (K := KFS.init (taylorTransform calmEnv exactJac) velocitySys none) C85_normal_draws PosSemidef.zero PosSemidef.zero
    demoSpace_good.R.posSemidef (hasMoments_ofMoment _ _ _) rfl rfl (fun _ => rfl) (fun _ => rfl) (fun _ => rfl) (fun _ => rfl)
    (fun t => affine_pointMap _ _ (some t) none) (affine_pointMap _ _ none none) demoSpace_good demo_describes 100
  exact ⟨data, fs, x, y, m, C, h1, fun i hi => (h2 i hi).2.1 (below_zero demoSpace_good.P0) (below_zero demoSpace_good.Q) fun _ => le_rfl⟩

/-- The constant velocity model with measurements of position and velocity. -/
noncomputable def twoSensors : StateSpace 2 2 := { demoSpace with H := fun _ => !![1, 0; 0, 1], c := fun _ => ![1, 2], R := diagonal ![1, 4] }
noncomputable def twoSensorKFS : KFS :=
  { demoKFS (taylorTransform calmEnv exactJac) with measurement := affineSys !![1, 0; 0, 1] ![1, 2], R := .m (diagonal ![1, 4]) }

/-- Position and velocity are measured in one run, the position alone in the other. -/
example (ys ys' : List Arr) (y : ℕ → Fin 2 → ℝ) (y' : ℕ → Fin 1 → ℝ) (hy : ∀ i a, ys[i]? = some a → IsVec a.squeeze (y i))
    (hy' : ∀ i a, ys'[i]? = some a → IsVec a.squeeze (y' i)) (hlen : ys'.length = ys.length) (hne : ys ≠ []) :
    ∃ fs fs' rs rs', twoSensorKFS.kalmanFilter calmEnv ys none 0 none = .ok fs ∧
      (demoKFS (taylorTransform calmEnv exactJac)).kalmanFilter calmEnv ys' none 0 none = .ok fs' ∧
      twoSensorKFS.kalmanSmoother calmEnv fs none = .ok rs ∧
      (demoKFS (taylorTransform calmEnv exactJac)).kalmanSmoother calmEnv fs' none = .ok rs' ∧ ReportsBelow calmEnv 2 ys.length rs rs' := by
  have e : twoSensors.withSensors (fun _ : Fin 1 => (0 : Fin 2)) = demoSpace := by
    simp only [StateSpace.withSensors, twoSensors, demoSpace, StateSpace.mk.injEq, true_and]
    refine ⟨funext fun i => ?_, funext fun i => ?_, ?_⟩
    · ext a b; fin_cases a; fin_cases b <;> rfl
    · ext a; fin_cases a; rfl
    · ext a b; fin_cases a; fin_cases b; simp
  refine C86_sensors_smoother (L := twoSensors) (s := fun _ : Fin 1 => (0 : Fin 2)) (prior := none) (prior' := none)
    ⟨demoSpace_good.P0, demoSpace_good.Q, PosDef.diagonal fun i => by fin_cases i <;> norm_num⟩ (by rw [e]; exact demoSpace_good) ?_
    (by rw [e]; exact demo_describes) hy hy' hlen hne
  exact ⟨fun _ => C20_taylor_exact calmEnv exactJac_correct (.inl (affineFunc_vec _ _)),
    fun _ => C20_taylor_exact calmEnv exactJac_correct (.inl (affineFunc_vec _ _)), rfl, rfl, hasMoments_ofMoment _ _ _⟩

/-- Twice the process noise. -/
example (ys : List Arr) (y : ℕ → Fin 1 → ℝ) (hy : ∀ i a, ys[i]? = some a → IsVec a.squeeze (y i)) :
    ∃ fs fs', (demoKFS (taylorTransform calmEnv exactJac)).kalmanFilter calmEnv ys none 0 none = .ok fs ∧
      ({ demoKFS (taylorTransform calmEnv exactJac) with Q := .m ((2 : ℝ) • demoSpace.Q) } : KFS).kalmanFilter calmEnv ys none 0 none = .ok fs' ∧
      ReportsBelow calmEnv 2 ys.length fs fs' := by
  have hQ : ((2 : ℝ) • demoSpace.Q).PosDef := demoSpace_good.Q.smul two_pos
  refine C86_monotone_filter (L := demoSpace) (P := demoSpace.P0) (Q := (2 : ℝ) • demoSpace.Q) (R := demoSpace.R) (prior := none) (prior' := none)
    demoSpace_good ⟨demoSpace_good.P0, hQ, demoSpace_good.R⟩ (fun _ => le_rfl) (fun u => ?_) (fun _ => le_rfl) demo_describes
    ⟨demo_describes.transition, demo_describes.measurement, rfl, rfl, demo_describes.prior⟩ hy hy rfl
  have := demoSpace_good.Q.posSemidef.dotProduct_mulVec_nonneg u
  rw [star_trivial] at this
  rw [smul_mulVec, dotProduct_smul, smul_eq_mul]
  linarith

/-- A measurement added to three others. -/
example (ys : List Arr) (y : ℕ → Fin 1 → ℝ) (hy : ∀ i a, ys[i]? = some a → IsVec a.squeeze (y i)) (h4 : ys.length = 4) :
    ∃ fs fs' rs rs', (demoKFS (taylorTransform calmEnv exactJac)).kalmanFilter calmEnv (ys.take 3) none 0 none = .ok fs ∧
      (demoKFS (taylorTransform calmEnv exactJac)).kalmanFilter calmEnv (ys.take 3 ++ ys.drop 3) none 0 none = .ok fs' ∧
      (demoKFS (taylorTransform calmEnv exactJac)).kalmanSmoother calmEnv fs none = .ok rs ∧
      (demoKFS (taylorTransform calmEnv exactJac)).kalmanSmoother calmEnv fs' none = .ok rs' ∧
      ReportsBelow calmEnv 2 (ys.take 3).length (rs'.take (ys.take 3).length) rs ∧ ReportsBelow calmEnv 2 (ys.take 3).length rs fs :=
  C86_more_data (L := demoSpace) (prior := none) demoSpace_good demo_describes (y := y) (by rw [List.take_append_drop]; exact hy)
    (by rw [ne_eq, List.take_eq_nil_iff]; rintro (h | rfl) <;> simp at *)

end Verif
