import Verif.Props.Posterior
import Verif.Props.Sampling
import Verif.Lemmas.MatrixLimits

/-!
# The Kalman filter and smoother with the Monte Carlo transform: C119
-/

namespace Verif

open Matrix MeasureTheory ProbabilityTheory Filter Topology

variable {env : Env} {n k : ℕ}

/-! ## Vocabulary -/

/-- Draws that represent their distribution as the number of samples grows: whenever the requested means and (positive definite)
covariances converge to a mean and a positive definite covariance, so do the sample means and the sample covariances. -/
def Faithful (n : ℕ) (draw : Draw) : Prop :=
  ∀ (μ : ℕ → Fin n → ℝ) (C : ℕ → Matrix (Fin n) (Fin n) ℝ) (m : Fin n → ℝ) (P : Matrix (Fin n) (Fin n) ℝ), P.PosDef →
    Tendsto μ atTop (𝓝 m) → Tendsto C atTop (𝓝 P) → (∀ᶠ N in atTop, (C N).PosDef) →
    Tendsto (fun N => sampleMean (draw N (μ N) (C N))) atTop (𝓝 m) ∧
      Tendsto (fun N => sampleCov (draw N (μ N) (C N))) atTop (𝓝 P)

/-- A filter object with the Monte Carlo transform of `N` samples for the linear system `L`: its functions map rows affinely at the
times `t₀ + i dt`, and the noise covariances and the prior agree. -/
structure SamplesFor (env : Env) (draw : Draw) (N : ℕ) (K : KFS) (u : Option ℝ) (t₀ : ℝ) (prior : Gaussian) (L : StateSpace n k) :
    Prop where
  transform : K.transform = mcTransform env draw N
  measTransform : K.measTransform = mcTransform env draw N
  transition : ∀ i : ℕ, AffineRows (fun x => K.transition x (some (t₀ + i * K.dt)) u) (L.A i) (L.b i)
  measurement : ∀ i : ℕ, AffineRows (fun x => K.measurement x (some (t₀ + i * K.dt)) u) (L.H i) (L.c i)
  Q : K.Q = .m L.Q
  R : K.R = .m L.R
  prior : HasMoments env prior L.m0 L.P0

/-- Every call of the generator takes its samples from one of `J` sequences of vectors `z j 0, z j 1, …` and returns
`μ + root(C) z j l` with a root of the covariance. -/
def FromStreams {J : ℕ} (root : Matrix (Fin n) (Fin n) ℝ → Matrix (Fin n) (Fin n) ℝ) (z : Fin J → ℕ → Fin n → ℝ) (draw : Draw) : Prop :=
  ∀ (N : ℕ) (μ : Fin n → ℝ) (C : Matrix (Fin n) (Fin n) ℝ), C.PosDef →
    ∃ j, ∀ l : Fin N, draw N μ C l = μ + root C *ᵥ z j l

/-! ## The recursions -/

namespace StateSpace

variable (L : StateSpace n k) (y : ℕ → Fin k → ℝ) (draw : Draw) (N : ℕ)

private noncomputable def mcPred (i : ℕ) (p : (Fin n → ℝ) × Matrix (Fin n) (Fin n) ℝ) : (Fin n → ℝ) × Matrix (Fin n) (Fin n) ℝ :=
  (L.A i *ᵥ sampleMean (draw N p.1 p.2) + L.b i, L.A i * sampleCov (draw N p.1 p.2) * (L.A i)ᵀ + L.Q)

private noncomputable def mcCorr (i : ℕ) (q : (Fin n → ℝ) × Matrix (Fin n) (Fin n) ℝ) (m : Fin n → ℝ) (S : Matrix (Fin n) (Fin n) ℝ) :
    (Fin n → ℝ) × Matrix (Fin n) (Fin n) ℝ :=
  (q.1 + ((L.H i * S * (L.H i)ᵀ + L.R)⁻¹ * (S * (L.H i)ᵀ)ᵀ)ᵀ *ᵥ (y i - (L.H i *ᵥ m + L.c i)),
    q.2 - ((L.H i * S * (L.H i)ᵀ + L.R)⁻¹ * (S * (L.H i)ᵀ)ᵀ)ᵀ * (S * (L.H i)ᵀ)ᵀ)

private noncomputable def mcFilt : ℕ → (Fin n → ℝ) × Matrix (Fin n) (Fin n) ℝ
  | 0 => (L.m0, L.P0)
  | i + 1 => L.mcCorr y i (L.mcPred draw N i (mcFilt i))
      (sampleMean (draw N (L.mcPred draw N i (mcFilt i)).1 (L.mcPred draw N i (mcFilt i)).2))
      (sampleCov (draw N (L.mcPred draw N i (mcFilt i)).1 (L.mcPred draw N i (mcFilt i)).2))

private noncomputable def mcBack (i : ℕ) (p s : (Fin n → ℝ) × Matrix (Fin n) (Fin n) ℝ) (m : Fin n → ℝ) (S : Matrix (Fin n) (Fin n) ℝ) :
    (Fin n → ℝ) × Matrix (Fin n) (Fin n) ℝ :=
  (p.1 + ((L.A i * S * (L.A i)ᵀ + L.Q)⁻¹ * (S * (L.A i)ᵀ)ᵀ)ᵀ *ᵥ (s.1 - (L.A i *ᵥ m + L.b i)),
    p.2 + ((L.A i * S * (L.A i)ᵀ + L.Q)⁻¹ * (S * (L.A i)ᵀ)ᵀ)ᵀ * (s.2 - (L.A i * S * (L.A i)ᵀ + L.Q)) *
      (((L.A i * S * (L.A i)ᵀ + L.Q)⁻¹ * (S * (L.A i)ᵀ)ᵀ)ᵀ)ᵀ)

private noncomputable def mcSmth : ℕ → ℕ → (Fin n → ℝ) × Matrix (Fin n) (Fin n) ℝ
  | i, 0 => L.mcFilt y draw N i
  | i, d + 1 => L.mcBack i (L.mcFilt y draw N i) (mcSmth (i + 1) d)
      (sampleMean (draw N (L.mcFilt y draw N i).1 (L.mcFilt y draw N i).2))
      (sampleCov (draw N (L.mcFilt y draw N i).1 (L.mcFilt y draw N i).2))

end StateSpace

private theorem sampleCov_psd {N : ℕ} (hN : 2 ≤ N) (X : Matrix (Fin N) (Fin n) ℝ) : (sampleCov X).PosSemidef := by
  have h := covEntry_psd (show 1 < N by omega) fun i l => X l i
  convert h using 1
  ext i j
  rw [sampleCov_apply]; rfl

/-! ## Runs of the filter -/

private noncomputable def gOf (p : (Fin n → ℝ) × Matrix (Fin n) (Fin n) ℝ) : Gaussian := Gaussian.ofMoment (.v p.1) (.m p.2)

private theorem gOf_moments (p : (Fin n → ℝ) × Matrix (Fin n) (Fin n) ℝ) : HasMoments env (gOf p) p.1 p.2 :=
  hasMoments_ofMoment _ _ _

private theorem mc_filter_loop {draw : Draw} {N : ℕ} (hN : 2 ≤ N) (hnk : n + k ≠ 1) {K : KFS} {u : Option ℝ} {t₀ : ℝ} {prior : Gaussian}
    {L : StateSpace n k} (hL : L.Good) (hK : SamplesFor env draw N K u t₀ prior L) {y : ℕ → Fin k → ℝ} :
    ∀ (ys : List Arr) (i : ℕ) (g : Gaussian), HasMoments env g (L.mcFilt y draw N i).1 (L.mcFilt y draw N i).2 →
    (∀ j a, ys[j]? = some a → IsVec a.squeeze (y (i + j))) →
    K.filterLoop env u g (t₀ + i * K.dt) ys = .ok ((List.range ys.length).map fun j => gOf (L.mcFilt y draw N (i + j + 1)))
  | [], i, g, _, _ => rfl
  | a :: ys, i, g, hg, hy => by
    have hT := C18_monte_carlo_affine (env := env) draw hN (n := n) (k := n) (by omega) hg (hK.transition i)
    rw [← hK.transform] at hT
    have h1 := KFS.predict_of hT (.inl rfl) hK.Q
    have hM := C18_monte_carlo_affine (env := env) draw hN hnk (hasMoments_ofMoment env
      (L.mcPred draw N i (L.mcFilt y draw N i)).1 (L.mcPred draw N i (L.mcFilt y draw N i)).2) (hK.measurement i)
    rw [← hK.measTransform] at hM
    have h2 := KFS.correct_of (hasMoments_ofMoment env _ _) hM (.inl rfl) (hy 0 a rfl) hK.R
      (posDef_det_ne (innov_posDef (sampleCov_psd hN _) hL.R _))
    rw [add_zero] at h2
    have h2' : K.correct env (Gaussian.ofMoment (.v (L.A i *ᵥ sampleMean (draw N (L.mcFilt y draw N i).1 (L.mcFilt y draw N i).2) + L.b i))
        (.m (L.A i * sampleCov (draw N (L.mcFilt y draw N i).1 (L.mcFilt y draw N i).2) * (L.A i)ᵀ + L.Q))) a.squeeze
        (some (t₀ + i * K.dt)) u = .ok (gOf (L.mcFilt y draw N (i + 1))) := h2
    have e2 : t₀ + (i : ℝ) * K.dt + K.dt = t₀ + ((i + 1 : ℕ) : ℝ) * K.dt := by push_cast; ring
    have h3 := mc_filter_loop hN hnk hL hK ys (i + 1) (gOf (L.mcFilt y draw N (i + 1))) (gOf_moments _) fun j a ha => by
      have := hy (j + 1) a (by simpa using ha)
      rwa [show i + 1 + j = i + (j + 1) by omega]
    rw [KFS.filterLoop, h1, ok_bind, h2', ok_bind, e2, h3, ok_bind, List.length_cons, List.range_succ_eq_map, List.map_cons,
      List.map_map]
    simp only [py_pure, Except.ok.injEq, List.cons.injEq, add_zero, true_and]
    refine List.map_congr_left fun j _ => ?_
    simp only [Function.comp, Nat.succ_eq_add_one, show i + 1 + j + 1 = i + (j + 1) + 1 by omega]

private theorem mc_smooth_loop {draw : Draw} {N : ℕ} (hN : 2 ≤ N) {K : KFS} {u : Option ℝ} {prior : Gaussian}
    {L : StateSpace n k} (hL : L.Good) (hK : SamplesFor env draw N K u 0 prior L) {y : ℕ → Fin k → ℝ} (M : ℕ) : ∀ (j : ℕ), j < M →
    K.smoothLoop env u (gOf (L.mcSmth y draw N (j + 1) (M - (j + 1)))) (j * K.dt)
      (((List.range j).map fun i => gOf (L.mcFilt y draw N (i + 1))).reverse) =
      .ok (((List.range j).map fun i => gOf (L.mcSmth y draw N (i + 1) (M - (i + 1)))).reverse)
  | 0, _ => rfl
  | j + 1, hj => by
    have hT := C18_monte_carlo_affine (env := env) draw hN (n := n) (k := n) (by omega)
      (gOf_moments (L.mcFilt y draw N (j + 1))) (hK.transition (j + 1))
    rw [← hK.transform] at hT
    have h1 := KFS.smooth_of (gOf_moments (L.mcFilt y draw N (j + 1)))
      (gOf_moments (env := env) (L.mcSmth y draw N (j + 1 + 1) (M - (j + 1 + 1)))) hT (.inl rfl)
      hK.Q (posDef_det_ne (innov_posDef (sampleCov_psd hN _) hL.Q _))
    rw [zero_add] at h1
    have hd : M - (j + 1) = M - (j + 1 + 1) + 1 := by omega
    have h1' : K.smooth env (gOf (L.mcFilt y draw N (j + 1))) (gOf (L.mcSmth y draw N (j + 1 + 1) (M - (j + 1 + 1))))
        (some (((j + 1 : ℕ) : ℝ) * K.dt)) u = .ok (gOf (L.mcSmth y draw N (j + 1) (M - (j + 1)))) := by
      rw [h1, hd]
      rfl
    have ih := mc_smooth_loop hN hL hK (y := y) M j (by omega)
    have e2 : ((j + 1 : ℕ) : ℝ) * K.dt - K.dt = j * K.dt := by push_cast; ring
    rw [List.range_succ, List.map_append, List.map_append, List.reverse_append, List.reverse_append]
    simp only [List.map_cons, List.map_nil, List.reverse_cons, List.reverse_nil, List.nil_append, List.singleton_append]
    rw [KFS.smoothLoop, h1', ok_bind, gOf, copyV_moment, ok_bind, e2]
    rw [gOf] at ih
    rw [ih, ok_bind, py_pure]

/-! ## Limits -/

private theorem mcPred_posDef {L : StateSpace n k} (hL : L.Good) {draw : Draw} {N : ℕ} (hN : 2 ≤ N) (i : ℕ)
    (p : (Fin n → ℝ) × Matrix (Fin n) (Fin n) ℝ) : (L.mcPred draw N i p).2.PosDef :=
  innov_posDef (sampleCov_psd hN _) hL.Q _

private theorem mcCorr_symm {L : StateSpace n k} (hL : L.Good) {y : ℕ → Fin k → ℝ} (i : ℕ)
    {q : (Fin n → ℝ) × Matrix (Fin n) (Fin n) ℝ} {m : Fin n → ℝ} {S : Matrix (Fin n) (Fin n) ℝ} (hq : q.2ᵀ = q.2) (hS : S.PosSemidef) :
    (L.mcCorr y i q m S).2ᵀ = (L.mcCorr y i q m S).2 := by
  simp only [StateSpace.mcCorr]
  rw [gainMat_eq hS hL.R, gainMat]
  have hI := posDef_inv_symm (innov_posDef hS hL.R (L.H i))
  generalize (L.H i * S * (L.H i)ᵀ + L.R)⁻¹ = I at hI
  simp only [transpose_sub, transpose_mul, transpose_transpose, hq, posSemidef_symm hS, hI, Matrix.mul_assoc]

private theorem mcFilt_tendsto {L : StateSpace n k} (hL : L.Good) {draw : Draw} (hd : Faithful n draw) (y : ℕ → Fin k → ℝ) : ∀ i,
    Tendsto (fun N => (L.mcFilt y draw N i).1) atTop (𝓝 (L.filt y i).1) ∧
    Tendsto (fun N => (L.mcFilt y draw N i).2) atTop (𝓝 (L.filt y i).2) ∧ ∀ᶠ N in atTop, (L.mcFilt y draw N i).2.PosDef
  | 0 => ⟨tendsto_const_nhds, tendsto_const_nhds, Eventually.of_forall fun _ => hL.P0⟩
  | i + 1 => by
    obtain ⟨h1, h2, h3⟩ := mcFilt_tendsto hL hd y i
    obtain ⟨a1, a2⟩ := hd _ _ _ _ (hL.filt i) h1 h2 h3
    have b1 : Tendsto (fun N => (L.mcPred draw N i (L.mcFilt y draw N i)).1) atTop (𝓝 (L.A i *ᵥ (L.filt y i).1 + L.b i)) :=
      (matrix_tendsto_mulVec tendsto_const_nhds a1).add tendsto_const_nhds
    have b2 : Tendsto (fun N => (L.mcPred draw N i (L.mcFilt y draw N i)).2) atTop
        (𝓝 (L.A i * (L.filt y i).2 * (L.A i)ᵀ + L.Q)) :=
      (matrix_tendsto_mul (matrix_tendsto_mul tendsto_const_nhds a2) tendsto_const_nhds).add tendsto_const_nhds
    have hS := hL.pred (y := y) i
    have b3 : ∀ᶠ N in atTop, (L.mcPred draw N i (L.mcFilt y draw N i)).2.PosDef := by
      filter_upwards [eventually_ge_atTop 2] with N hN using mcPred_posDef hL hN i _
    obtain ⟨c1, c2⟩ := hd _ _ _ _ hS b1 b2 b3
    have d1 := matrix_tendsto_mul c2 (tendsto_const_nhds (x := (L.H i)ᵀ))
    have d2 := (matrix_tendsto_mul (matrix_tendsto_mul (tendsto_const_nhds (x := L.H i)) c2) (tendsto_const_nhds (x := (L.H i)ᵀ))).add
      (tendsto_const_nhds (x := L.R))
    have d3 := matrix_tendsto_T (matrix_tendsto_mul (matrix_tendsto_inv (innov_posDef hS.posSemidef hL.R (L.H i)) d2) (matrix_tendsto_T d1))
    have e1 := b1.add (matrix_tendsto_mulVec d3 ((tendsto_const_nhds (x := y i)).sub
      ((matrix_tendsto_mulVec (tendsto_const_nhds (x := L.H i)) c1).add (tendsto_const_nhds (x := L.c i)))))
    have e2 := b2.sub (matrix_tendsto_mul d3 (matrix_tendsto_T d1))
    rw [gainMat_eq hS.posSemidef hL.R] at e1 e2
    have f2 : Tendsto (fun N => (L.mcFilt y draw N (i + 1)).2) atTop (𝓝 (L.filt y (i + 1)).2) := e2
    refine ⟨e1, f2, posDef_eventually (hL.filt _) f2 ?_⟩
    filter_upwards [eventually_ge_atTop 2] with N hN
    exact mcCorr_symm hL i (posSemidef_symm (mcPred_posDef hL hN i _).posSemidef) (sampleCov_psd hN _)

private theorem smth_step {L : StateSpace n k} (hL : L.Good) (y : ℕ → Fin k → ℝ) (i d : ℕ) :
    L.smth y i (d + 1) = L.mcBack i (L.filt y i) (L.smth y (i + 1) d) (L.filt y i).1 (L.filt y i).2 := by
  have hP := hL.filt (y := y) i
  have hS := hL.pred (y := y) i
  simp only [StateSpace.mcBack, StateSpace.smth]
  rw [gainMat_eq hP.posSemidef hL.Q]
  congr 1
  · rw [mulVec_sub, StateSpace.gain]; abel
  · rw [StateSpace.gain]
    have e1 : gainMat (L.filt y i).2 (L.A i) L.Q * (L.A i * (L.filt y i).2 * (L.A i)ᵀ + L.Q) = (L.filt y i).2 * (L.A i)ᵀ := by
      rw [gainMat, Matrix.mul_assoc, posDef_inv_mul hS, Matrix.mul_one]
    have e2 : (gainMat (L.filt y i).2 (L.A i) L.Q)ᵀ =
        (L.A i * (L.filt y i).2 * (L.A i)ᵀ + L.Q)⁻¹ * ((L.filt y i).2 * (L.A i)ᵀ)ᵀ := by
      rw [← gainMat_eq hP.posSemidef hL.Q, transpose_transpose]
    rw [Matrix.mul_sub, Matrix.sub_mul, e1, condCov]
    conv_lhs => rw [e2]
    conv_rhs => rw [e2]
    simp only [Matrix.mul_assoc]
    abel

private theorem mcSmth_tendsto {L : StateSpace n k} (hL : L.Good) {draw : Draw} (hd : Faithful n draw) (y : ℕ → Fin k → ℝ) : ∀ d i,
    Tendsto (fun N => (L.mcSmth y draw N i d).1) atTop (𝓝 (L.smth y i d).1) ∧
    Tendsto (fun N => (L.mcSmth y draw N i d).2) atTop (𝓝 (L.smth y i d).2)
  | 0, i => by
    obtain ⟨h1, h2, -⟩ := mcFilt_tendsto hL hd y i
    exact ⟨h1, h2⟩
  | d + 1, i => by
    obtain ⟨h1, h2, h3⟩ := mcFilt_tendsto hL hd y i
    obtain ⟨s1, s2⟩ := mcSmth_tendsto hL hd y d (i + 1)
    obtain ⟨c1, c2⟩ := hd _ _ _ _ (hL.filt i) h1 h2 h3
    have hS := hL.pred (y := y) i
    have d1 := matrix_tendsto_mul c2 (tendsto_const_nhds (x := (L.A i)ᵀ))
    have d2 := (matrix_tendsto_mul (matrix_tendsto_mul (tendsto_const_nhds (x := L.A i)) c2) (tendsto_const_nhds (x := (L.A i)ᵀ))).add
      (tendsto_const_nhds (x := L.Q))
    have d3 := matrix_tendsto_T (matrix_tendsto_mul (matrix_tendsto_inv hS d2) (matrix_tendsto_T d1))
    have e1 := h1.add (matrix_tendsto_mulVec d3 (s1.sub
      ((matrix_tendsto_mulVec (tendsto_const_nhds (x := L.A i)) c1).add (tendsto_const_nhds (x := L.b i)))))
    have e2 := h2.add (matrix_tendsto_mul (matrix_tendsto_mul d3 (s2.sub d2)) (matrix_tendsto_T d3))
    rw [smth_step hL]
    exact ⟨e1, e2⟩

/-! ## C119 -/

/-- **C119.** On a linear Gaussian system the Kalman filter with the Monte Carlo transform succeeds for every number of samples `N ≥ 2`
and every outcome of the draws, and with faithful draws its means and covariances converge, as `N` grows, to those of the exact
posterior distribution of each state given the measurements so far. -/
theorem C119_filter {draw : Draw} (hnk : n + k ≠ 1) {K : ℕ → KFS} {u : Option ℝ} {tZero : ℝ} {prior : Option Gaussian}
    {L : StateSpace n k} (hL : L.Good) (hK : ∀ N, SamplesFor env draw N (K N) u tZero (prior.getD (K N).initState) L)
    {ys : List Arr} {y : ℕ → Fin k → ℝ} (hy : ∀ i a, ys[i]? = some a → IsVec a.squeeze (y i)) :
    ∃ (M : ℕ → ℕ → Fin n → ℝ) (V : ℕ → ℕ → Matrix (Fin n) (Fin n) ℝ), (∀ N, 2 ≤ N → ∃ fs, (K N).kalmanFilter env ys prior tZero u = .ok fs ∧ fs.length = ys.length ∧
        ∀ i < ys.length, ∃ g, fs[i]? = some g ∧ HasMoments env g (M N i) (V N i)) ∧
      (Faithful n draw → ∀ i < ys.length, ∃ m C, C.PosDef ∧
        (∀ z, L.posterior y (i + 1) (i + 1) z = ENNReal.ofReal (normalPdf m C z)) ∧
        Tendsto (fun N => M N i) atTop (𝓝 m) ∧ Tendsto (fun N => V N i) atTop (𝓝 C)) := by
  refine ⟨fun N i => (L.mcFilt y draw N (i + 1)).1, fun N i => (L.mcFilt y draw N (i + 1)).2, fun N hN => ?_, fun hd i hi => ?_⟩
  · have h := mc_filter_loop hN hnk hL (hK N) ys 0 (prior.getD (K N).initState) (hK N).prior
      (fun j a ha => by rw [zero_add]; exact hy j a ha)
    rw [Nat.cast_zero, zero_mul, add_zero] at h
    refine ⟨_, h, by simp, fun i hi => ⟨gOf (L.mcFilt y draw N (i + 1)), ?_, gOf_moments (L.mcFilt y draw N (i + 1))⟩⟩
    simp [hi]
  · obtain ⟨h1, h2, -⟩ := mcFilt_tendsto hL hd y (i + 1)
    refine ⟨_, _, hL.filt _, fun z => ?_, h1, h2⟩
    rw [hL.posterior le_rfl, Nat.sub_self]; rfl

/-- **C119** (smoother). The smoother, run on these results, succeeds for every `N ≥ 2` and every outcome of the draws, and with faithful
draws its means and covariances converge to those of the exact posterior distribution of each state given all measurements. -/
theorem C119_smoother {draw : Draw} (hnk : n + k ≠ 1) {K : ℕ → KFS} {u : Option ℝ} {prior : Option Gaussian}
    {L : StateSpace n k} (hL : L.Good) (hK : ∀ N, SamplesFor env draw N (K N) u 0 (prior.getD (K N).initState) L)
    {ys : List Arr} {y : ℕ → Fin k → ℝ} (hy : ∀ i a, ys[i]? = some a → IsVec a.squeeze (y i)) (hne : ys ≠ []) :
    ∃ (M : ℕ → ℕ → Fin n → ℝ) (V : ℕ → ℕ → Matrix (Fin n) (Fin n) ℝ), (∀ N, 2 ≤ N → ∃ fs rs, (K N).kalmanFilter env ys prior 0 u = .ok fs ∧ (K N).kalmanSmoother env fs u = .ok rs ∧
        rs.length = ys.length ∧ ∀ i < ys.length, ∃ g, rs[i]? = some g ∧ HasMoments env g (M N i) (V N i)) ∧
      (Faithful n draw → ∀ i < ys.length, ∃ m C, C.PosDef ∧
        (∀ z, L.posterior y ys.length (i + 1) z = ENNReal.ofReal (normalPdf m C z)) ∧
        Tendsto (fun N => M N i) atTop (𝓝 m) ∧ Tendsto (fun N => V N i) atTop (𝓝 C)) := by
  refine ⟨fun N i => (L.mcSmth y draw N (i + 1) (ys.length - (i + 1))).1, fun N i => (L.mcSmth y draw N (i + 1) (ys.length - (i + 1))).2,
    fun N hN => ?_, fun hd i hi => ?_⟩
  · have h := mc_filter_loop hN hnk hL (hK N) ys 0 (prior.getD (K N).initState) (hK N).prior
      (fun j a ha => by rw [zero_add]; exact hy j a ha)
    rw [Nat.cast_zero, zero_mul, add_zero] at h
    simp only [zero_add] at h
    obtain ⟨W, hW⟩ : ∃ W, ys.length = W + 1 := ⟨ys.length - 1, by have := List.length_pos_iff.2 hne; omega⟩
    refine ⟨_, (List.range ys.length).map fun i => gOf (L.mcSmth y draw N (i + 1) (ys.length - (i + 1))), h, ?_, by simp, fun i hi => ?_⟩
    · have hs := mc_smooth_loop hN hL (hK N) (y := y) (W + 1) W (by omega)
      rw [KFS.kalmanSmoother, List.length_map, List.length_range, hW, List.range_succ, List.map_append, List.reverse_append]
      simp only [List.map_cons, List.map_nil, List.reverse_cons, List.reverse_nil, List.nil_append, List.singleton_append]
      have e : ((W + 1 : ℕ) : ℝ) - 1 = W := by push_cast; ring
      rw [Nat.sub_self] at hs
      rw [gOf, copyV_moment, ok_bind, e]
      rw [show gOf (L.mcSmth y draw N (W + 1) 0) = Gaussian.ofMoment (.v (L.mcFilt y draw N (W + 1)).1) (.m (L.mcFilt y draw N (W + 1)).2)
        from rfl] at hs
      rw [hs, ok_bind, py_pure, List.map_append]
      simp only [List.reverse_reverse, List.map_cons, List.map_nil, Nat.sub_self]
      rfl
    · refine ⟨gOf (L.mcSmth y draw N (i + 1) (ys.length - (i + 1))), ?_, gOf_moments _⟩
      simp [hi]
  · obtain ⟨h1, h2⟩ := mcSmth_tendsto hL hd y (ys.length - (i + 1)) (i + 1)
    exact ⟨_, _, hL.smth _ _, fun z => hL.posterior hi z, h1, h2⟩

/-! ## Faithful draws -/

private theorem root_entry_le {C B : Matrix (Fin n) (Fin n) ℝ} (h : B * Bᵀ = C) (a b : Fin n) : |B a b| ≤ 1 + C a a := by
  have h1 : C a a = ∑ b, B a b ^ 2 := by
    rw [← h, Matrix.mul_apply]
    exact Finset.sum_congr rfl fun b _ => by rw [transpose_apply, sq]
  have h2 : B a b ^ 2 ≤ ∑ b, B a b ^ 2 := Finset.single_le_sum (f := fun b => B a b ^ 2) (fun _ _ => sq_nonneg _) (Finset.mem_univ b)
  rw [← h1] at h2
  nlinarith [sq_abs (B a b), sq_nonneg (|B a b| - 1), abs_nonneg (B a b)]

private theorem faithful_of_streams {J : ℕ} {root : Matrix (Fin n) (Fin n) ℝ → Matrix (Fin n) (Fin n) ℝ}
    (hroot : ∀ C : Matrix (Fin n) (Fin n) ℝ, C.PosDef → root C * (root C)ᵀ = C) {z : Fin J → ℕ → Fin n → ℝ} {draw : Draw}
    (hd : FromStreams root z draw)
    (hm : ∀ j b, Tendsto (fun N : ℕ => (∑ l : Fin N, z j l b) / N) atTop (𝓝 0))
    (hc : ∀ j b b', Tendsto (fun N : ℕ => covEntry (fun l : Fin N => z j l b) fun l => z j l b') atTop (𝓝 ((1 : Matrix (Fin n) (Fin n) ℝ) b b'))) :
    Faithful n draw := by
  intro μ C m P hP hμ hC hpd
  have hE1 : Tendsto (fun N : ℕ => ∑ j, ∑ b, |(∑ l : Fin N, z j l b) / N|) atTop (𝓝 0) := by
    have := tendsto_finsetSum Finset.univ fun j _ => tendsto_finsetSum Finset.univ fun b _ => (hm j b).abs
    simpa using this
  have hE2 : Tendsto (fun N : ℕ => ∑ j, ∑ b, ∑ b', |covEntry (fun l : Fin N => z j l b) (fun l => z j l b') - (1 : Matrix (Fin n) (Fin n) ℝ) b b'|)
      atTop (𝓝 0) := by
    have := tendsto_finsetSum Finset.univ fun j _ => tendsto_finsetSum Finset.univ fun b _ => tendsto_finsetSum Finset.univ fun b' _ =>
      ((hc j b b').sub_const ((1 : Matrix (Fin n) (Fin n) ℝ) b b')).abs
    simpa using this
  have hCe : ∀ a a', Tendsto (fun N => C N a a') atTop (𝓝 (P a a')) := fun a a' =>
    tendsto_pi_nhds.1 (tendsto_pi_nhds.1 hC a) a'
  constructor
  · refine tendsto_pi_nhds.2 fun a => ?_
    have hb : Tendsto (fun N => sampleMean (draw N (μ N) (C N)) a - μ N a) atTop (𝓝 0) := by
      have hlim := ((hCe a a).const_add 1).mul hE1
      rw [mul_zero] at hlim
      refine squeeze_zero_norm' ?_ hlim
      filter_upwards [hpd, eventually_ge_atTop 1] with N hN hN1
      obtain ⟨j, hj⟩ := hd N (μ N) (C N) hN
      have hN0 : (N : ℝ) ≠ 0 := by positivity
      have e : sampleMean (draw N (μ N) (C N)) a - μ N a = ∑ b, root (C N) a b * ((∑ l : Fin N, z j l b) / N) := by
        simp only [sampleMean_apply, hj, Pi.add_apply, mulVec, dotProduct, Finset.sum_add_distrib, Finset.sum_const, Finset.card_univ,
          Fintype.card_fin, nsmul_eq_mul]
        rw [Finset.sum_comm, add_div, mul_div_cancel_left₀ _ hN0, add_sub_cancel_left, Finset.sum_div]
        exact Finset.sum_congr rfl fun b _ => by rw [← Finset.mul_sum, mul_div_assoc]
      rw [e, Real.norm_eq_abs]
      have hCa : 0 ≤ 1 + C N a a := (abs_nonneg _).trans (root_entry_le (hroot _ hN) a a)
      calc |∑ b, root (C N) a b * ((∑ l : Fin N, z j l b) / N)| ≤ ∑ b, |root (C N) a b * ((∑ l : Fin N, z j l b) / N)| :=
            Finset.abs_sum_le_sum_abs _ _
        _ ≤ ∑ b, (1 + C N a a) * |(∑ l : Fin N, z j l b) / N| := Finset.sum_le_sum fun b _ => by
            rw [abs_mul]; exact mul_le_mul_of_nonneg_right (root_entry_le (hroot _ hN) a b) (abs_nonneg _)
        _ = (1 + C N a a) * ∑ b, |(∑ l : Fin N, z j l b) / N| := by rw [Finset.mul_sum]
        _ ≤ _ := mul_le_mul_of_nonneg_left (Finset.single_le_sum (f := fun j => ∑ b, |(∑ l : Fin N, z j l b) / N|)
            (fun _ _ => Finset.sum_nonneg fun _ _ => abs_nonneg _) (Finset.mem_univ j)) hCa
    have := hb.add (tendsto_pi_nhds.1 hμ a)
    simpa using this
  · refine tendsto_pi_nhds.2 fun a => tendsto_pi_nhds.2 fun a' => ?_
    have hb : Tendsto (fun N => sampleCov (draw N (μ N) (C N)) a a' - C N a a') atTop (𝓝 0) := by
      have hlim := (((hCe a a).const_add 1).mul ((hCe a' a').const_add 1)).mul hE2
      rw [mul_zero] at hlim
      refine squeeze_zero_norm' ?_ hlim
      filter_upwards [hpd, eventually_ge_atTop 1] with N hN hN1
      obtain ⟨j, hj⟩ := hd N (μ N) (C N) hN
      have hN0 : N ≠ 0 := by omega
      have e1 : ∀ c, (fun l : Fin N => draw N (μ N) (C N) l c) =
          fun l => (∑ b, (of fun (l : Fin N) b => z j l b : Matrix (Fin N) (Fin n) ℝ) l b * root (C N) c b) + μ N c := fun c => by
        funext l
        simp only [hj, Pi.add_apply, mulVec, dotProduct, of_apply, mul_comm (root (C N) c _), add_comm (μ N c)]
      have e2 : sampleCov (draw N (μ N) (C N)) a a' =
          ∑ b, ∑ b', root (C N) a b * root (C N) a' b' * covEntry (fun l : Fin N => z j l b) fun l => z j l b' := by
        rw [sampleCov_apply, e1 a', covEntry_affine_right hN0, Finset.sum_comm]
        refine Finset.sum_congr rfl fun b' _ => ?_
        rw [e1 a, covEntry_comm, covEntry_affine_right hN0, Finset.sum_mul]
        refine Finset.sum_congr rfl fun b _ => ?_
        rw [covEntry_comm]
        simp only [of_apply]
        ring
      have e3 : C N a a' = ∑ b, ∑ b', root (C N) a b * root (C N) a' b' * (1 : Matrix (Fin n) (Fin n) ℝ) b b' := by
        conv_lhs => rw [← hroot _ hN, Matrix.mul_apply]
        refine Finset.sum_congr rfl fun b _ => ?_
        simp [Matrix.one_apply]
      have hCa : 0 ≤ 1 + C N a a := (abs_nonneg _).trans (root_entry_le (hroot _ hN) a a)
      have hCa' : 0 ≤ 1 + C N a' a' := (abs_nonneg _).trans (root_entry_le (hroot _ hN) a' a')
      have e4 : sampleCov (draw N (μ N) (C N)) a a' - C N a a' = ∑ b, ∑ b', root (C N) a b * root (C N) a' b' *
          (covEntry (fun l : Fin N => z j l b) (fun l => z j l b') - (1 : Matrix (Fin n) (Fin n) ℝ) b b') := by
        rw [e2, e3, ← Finset.sum_sub_distrib]
        refine Finset.sum_congr rfl fun b _ => ?_
        rw [← Finset.sum_sub_distrib]
        exact Finset.sum_congr rfl fun b' _ => by ring
      rw [e4, Real.norm_eq_abs]
      calc _ ≤ ∑ b, ∑ b', |root (C N) a b * root (C N) a' b' *
              (covEntry (fun l : Fin N => z j l b) (fun l => z j l b') - (1 : Matrix (Fin n) (Fin n) ℝ) b b')| :=
            (Finset.abs_sum_le_sum_abs _ _).trans (Finset.sum_le_sum fun b _ => Finset.abs_sum_le_sum_abs _ _)
        _ ≤ ∑ b, ∑ b', (1 + C N a a) * (1 + C N a' a') *
              |covEntry (fun l : Fin N => z j l b) (fun l => z j l b') - (1 : Matrix (Fin n) (Fin n) ℝ) b b'| :=
            Finset.sum_le_sum fun b _ => Finset.sum_le_sum fun b' _ => by
              rw [abs_mul, abs_mul]
              exact mul_le_mul_of_nonneg_right (mul_le_mul (root_entry_le (hroot _ hN) a b) (root_entry_le (hroot _ hN) a' b')
                (abs_nonneg _) hCa) (abs_nonneg _)
        _ = (1 + C N a a) * (1 + C N a' a') * ∑ b, ∑ b',
              |covEntry (fun l : Fin N => z j l b) (fun l => z j l b') - (1 : Matrix (Fin n) (Fin n) ℝ) b b'| := by
            simp only [Finset.mul_sum]
        _ ≤ _ := mul_le_mul_of_nonneg_left (Finset.single_le_sum (f := fun j => ∑ b, ∑ b',
            |covEntry (fun l : Fin N => z j l b) (fun l => z j l b') - (1 : Matrix (Fin n) (Fin n) ℝ) b b'|)
            (fun _ _ => Finset.sum_nonneg fun _ _ => Finset.sum_nonneg fun _ _ => abs_nonneg _) (Finset.mem_univ j))
            (mul_nonneg hCa hCa')
    have := hb.add (hCe a a')
    simpa using this

/-- **C119** (normal draws are faithful). Let every call of the generator return `μ + root(C) z` with samples `z` from one of finitely
many sequences, each of independent standard normal vectors. Then the draws are faithful almost surely. -/
theorem C119_normal_draws {Ω : Type*} [MeasurableSpace Ω] {p : Measure Ω} {J : ℕ}
    {root : Matrix (Fin n) (Fin n) ℝ → Matrix (Fin n) (Fin n) ℝ} (hroot : ∀ C : Matrix (Fin n) (Fin n) ℝ, C.PosDef → root C * (root C)ᵀ = C)
    {z : Fin J → ℕ → Ω → EuclideanSpace ℝ (Fin n)}
    (hz : ∀ j l, HasLaw (z j l) (multivariateGaussian (WithLp.toLp 2 0) 1) p) (hind : ∀ j, Pairwise fun l l' => z j l ⟂ᵢ[p] z j l')
    {draw : Ω → Draw} (hd : ∀ ω, FromStreams root (fun j l => (z j l ω).ofLp) (draw ω)) : ∀ᵐ ω ∂p, Faithful n (draw ω) := by
  have hc : ∀ i : Fin n, Measurable fun x : EuclideanSpace ℝ (Fin n) => x.ofLp i := fun i => by fun_prop
  have a1 := fun j b => mean_tendsto (hz j) (hind j) (hc b) ((memLp_c1 (μ := 0) (P := 1) b).integrable (by norm_num))
  have a2 := fun j b b' => cov_tendsto (hz j) (hind j) (hc b) (hc b') (memLp_c1 (μ := 0) (P := 1) b) (memLp_c1 b')
  have h0 : ∀ i : Fin n, ∫ y, y.ofLp i ∂(multivariateGaussian (WithLp.toLp 2 (0 : Fin n → ℝ)) 1) = 0 := fun i => expect_coord (μ := 0) (P := 1) i
  filter_upwards [ae_all_iff.2 fun j => ae_all_iff.2 (a1 j), ae_all_iff.2 fun j => ae_all_iff.2 fun b => ae_all_iff.2 (a2 j b)] with ω b1 b2
  refine faithful_of_streams hroot (hd ω) (fun j b => ?_) fun j b b' => ?_
  · have := b1 j b
    rwa [h0] at this
  · have := b2 j b b'
    have h := expect_central2 (n := n) (μ := 0) (P := 1) PosSemidef.one b b'
    simp only [expect, Pi.zero_apply] at h
    simp only [h0] at this
    rwa [h] at this

/-! ## Negative variances -/

private theorem gaussian_ray {m p : ℝ} (hp : 0 < p) {A : Set ℝ} (hA : volume A ≠ 0) : gaussianReal m p.toNNReal A ≠ 0 := fun h =>
  hA (gaussianReal_absolutelyContinuous' m (by simpa using hp) h)

private theorem spread_le {N : ℕ} (hN : 2 ≤ N) (x : Fin N → ℝ) (a b : Fin N) (hab : a ≠ b) :
    (x a - x b) ^ 2 / (2 * (N - 1)) ≤ covEntry x x := by
  have hN1 : (0 : ℝ) < N - 1 := by
    have : (2 : ℝ) ≤ N := by exact_mod_cast hN
    linarith
  rw [covEntry]
  set c := (∑ l, x l) / N
  have h1 : (x a - c) ^ 2 + (x b - c) ^ 2 ≤ ∑ l, (x l - c) * (x l - c) := by
    have := Finset.sum_le_sum_of_subset_of_nonneg (f := fun l => (x l - c) * (x l - c)) (Finset.subset_univ {a, b})
      fun l _ _ => mul_self_nonneg _
    rw [Finset.sum_pair hab] at this
    linarith [sq (x a - c), sq (x b - c)]
  have h2 : (x a - x b) ^ 2 / 2 ≤ ∑ l, (x l - c) * (x l - c) := by
    nlinarith [sq_nonneg (x a - c + (x b - c))]
  rw [← div_div, mul_one_div]
  exact div_le_div_of_nonneg_right h2 hN1.le

/-- **C119** (negative variances). For every number of samples the Monte Carlo filter can fail to return a covariance: the correction of a
one-dimensional state by a measurement `h x + b` with noise returns a negative variance with positive probability. -/
theorem C119_negative_variance {Ω : Type*} [MeasurableSpace Ω] {pr : Measure Ω} {draw : Ω → Draw} {m p h r : ℝ} (hp : 0 < p) (hh : h ≠ 0)
    (hr : 0 < r) (hdraw : IidDraws pr (v1 m) (m1 p) draw) {N : ℕ} (hN : 2 ≤ N) {K : Ω → KFS} {t u : Option ℝ} {b : Fin 1 → ℝ}
    (hT : ∀ ω, (K ω).measTransform = mcTransform env (draw ω) N)
    (hK : ∀ ω, AffineRows (fun x => (K ω).measurement x t u) (m1 h) b) (hR : ∀ ω, (K ω).R = .m (m1 r)) {g : Gaussian}
    (hg : HasMoments env g (v1 m) (m1 p)) {y : Arr} {yv : Fin 1 → ℝ} (hy : IsVec y yv) :
    0 < pr {ω | ∃ (q : Gaussian) (μ : Fin 1 → ℝ) (v : ℝ), (K ω).correct env g y t u = .ok q ∧ HasMoments env q μ (m1 v) ∧ v < 0} := by
  obtain ⟨X, hX, hind, hXd⟩ := hdraw
  have hN1 : (1 : ℝ) ≤ N - 1 := by
    have : (2 : ℝ) ≤ N := by exact_mod_cast hN
    linarith
  have hh2 : 0 < h ^ 2 := by positivity
  set T : ℝ := 2 * p + 2 * p * r / h ^ 2 + 1 with hTdef
  have hT1 : 1 ≤ T := by
    have : 0 ≤ 2 * p * r / h ^ 2 := by positivity
    linarith
  set D : ℝ := 2 * (N - 1) * T with hD
  have hD1 : 1 ≤ D := by nlinarith
  have hlaw : MeasurePreserving (fun x : EuclideanSpace ℝ (Fin 1) => x.ofLp 0) (multivariateGaussian (WithLp.toLp 2 (v1 m)) (m1 p))
      (gaussianReal m p.toNNReal) := by
    have := measurePreserving_eval_multivariateGaussian (μ := WithLp.toLp 2 (v1 m)) (S := m1 p) (m1_posDef.2 hp).posSemidef (i := 0)
    simpa using this
  have hc : Measurable fun x : EuclideanSpace ℝ (Fin 1) => x.ofLp 0 := by fun_prop
  have hpos : ∀ (l : ℕ) (A : Set ℝ), MeasurableSet A → volume A ≠ 0 → pr ((fun ω => X l ω) ⁻¹' ((fun x => x.ofLp 0) ⁻¹' A)) ≠ 0 := by
    intro l A hA hv
    rw [← Measure.map_apply_of_aemeasurable (hX l).aemeasurable (hc hA), (hX l).map_eq, hlaw.measure_preimage hA.nullMeasurableSet]
    exact gaussian_ray hp hv
  have hE : 0 < pr ((fun ω => X 0 ω) ⁻¹' ((fun x => x.ofLp 0) ⁻¹' Set.Ioi (m + D)) ∩
      (fun ω => X 1 ω) ⁻¹' ((fun x => x.ofLp 0) ⁻¹' Set.Iio m)) := by
    have hi : X 0 ⟂ᵢ[pr] X 1 := hind (by norm_num)
    rw [hi.measure_inter_preimage_eq_mul _ _ (hc measurableSet_Ioi) (hc measurableSet_Iio)]
    exact pos_iff_ne_zero.2 (mul_ne_zero (hpos 0 _ measurableSet_Ioi (by simp)) (hpos 1 _ measurableSet_Iio (by simp)))
  refine hE.trans_le (measure_mono ?_)
  rintro ω ⟨h0, h1⟩
  simp only [Set.mem_preimage, Set.mem_Ioi, Set.mem_Iio] at h0 h1
  have hM := C18_monte_carlo_affine (env := env) (draw ω) hN (n := 1) (k := 1) (by norm_num) hg (hK ω)
  rw [← hT] at hM
  obtain ⟨s, hs⟩ : ∃ s, sampleCov (draw ω N (v1 m) (m1 p)) = m1 s := ⟨_, m1_ext _⟩
  have hsT : T ≤ s := by
    have e : s = covEntry (fun l : Fin N => (X l ω).ofLp 0) fun l => (X l ω).ofLp 0 := by
      have := congrFun (congrFun hs 0) 0
      rw [sampleCov_apply, hXd] at this
      exact this.symm
    have h2 := spread_le hN (fun l : Fin N => (X l ω).ofLp 0) ⟨0, by omega⟩ ⟨1, by omega⟩ (by simp)
    rw [← e] at h2
    refine le_trans ?_ h2
    rw [le_div_iff₀ (by linarith)]
    dsimp only
    nlinarith
  have hs0 : 0 < s := by linarith
  rw [hs] at hM
  have hS : (m1 h * m1 s * (m1 h)ᵀ + m1 r).det ≠ 0 := by
    simp only [m1_transpose, m1_mul, m1_add, m1_det]
    have : h * s * h + r = h ^ 2 * s + r := by ring
    rw [this]
    positivity
  have h2 := KFS.correct_of hg hM (.inl rfl) hy (hR ω) hS
  simp only [m1_transpose, m1_mul, m1_add, m1_inv, m1_sub] at h2
  refine ⟨_, _, _, h2, hasMoments_ofMoment env _ _, ?_⟩
  have e : p - (h * s * h + r)⁻¹ * (s * h) * (s * h) = p - s ^ 2 * h ^ 2 / (h ^ 2 * s + r) := by ring
  rw [e]
  have hd : 0 < h ^ 2 * s + r := by positivity
  rw [sub_neg, lt_div_iff₀ hd]
  have h3 : 2 * p * r < s * h ^ 2 := by
    have : 2 * p * r / h ^ 2 < s := by linarith
    rwa [div_lt_iff₀ hh2] at this
  have h4 : 2 * p ≤ s := by
    have : 0 ≤ 2 * p * r / h ^ 2 := by positivity
    linarith
  nlinarith [mul_pos hh2 hs0]

/-! ## Examples -/

open scoped MatrixOrder in
/-- Streams of independent standard normal vectors, a root, and draws made from them exist. -/
theorem normalStreams_exist (n J : ℕ) : ∃ (Ω : Type) (_ : MeasurableSpace Ω) (p : Measure Ω)
    (root : Matrix (Fin n) (Fin n) ℝ → Matrix (Fin n) (Fin n) ℝ) (z : Fin (J + 1) → ℕ → Ω → EuclideanSpace ℝ (Fin n)) (draw : Ω → Draw),
    IsProbabilityMeasure p ∧ (∀ C : Matrix (Fin n) (Fin n) ℝ, C.PosDef → root C * (root C)ᵀ = C) ∧
    (∀ j l, HasLaw (z j l) (multivariateGaussian (WithLp.toLp 2 0) 1) p) ∧ (∀ j, Pairwise fun l l' => z j l ⟂ᵢ[p] z j l') ∧
    ∀ ω, FromStreams root (fun j l => (z j l ω).ofLp) (draw ω) := by
  classical
  have hr : ∀ C : Matrix (Fin n) (Fin n) ℝ, ∃ B : Matrix (Fin n) (Fin n) ℝ, C.PosDef → B * Bᵀ = C := fun C => by
    by_cases hC : C.PosDef
    · obtain ⟨B, hB⟩ := CStarAlgebra.nonneg_iff_eq_mul_star_self.mp hC.posSemidef.nonneg
      exact ⟨B, fun _ => hB.symm⟩
    · exact ⟨0, fun h => absurd h hC⟩
  choose root hroot using hr
  obtain ⟨Ω, hΩ, p, X, -, hX, hind, hp⟩ := exists_iid (Fin (J + 1) × ℕ) (multivariateGaussian (WithLp.toLp 2 (0 : Fin n → ℝ)) 1)
  refine ⟨Ω, hΩ, p, root, fun j l => X (j, l), fun ω N n' μ C => of fun l a => if h : n' = n then
    μ a + (root (C.submatrix (Fin.cast h.symm) (Fin.cast h.symm)) *ᵥ (X (0, l) ω).ofLp) (Fin.cast h a) else 0, hp, hroot,
    fun j l => hX (j, l), fun j l l' hl => hind.indepFun (by simpa using hl), fun ω N μ C _ => ⟨0, fun l => ?_⟩⟩
  funext a
  simp

/-- The constant velocity model: the Monte Carlo filter and smoother converge almost surely to the exact posteriors. -/
example : ∃ (Ω : Type) (_ : MeasurableSpace Ω) (p : Measure Ω) (draw : Ω → Draw), IsProbabilityMeasure p ∧
    ∀ᵐ ω ∂p, ∃ (M : ℕ → ℕ → Fin 2 → ℝ) (V : ℕ → ℕ → Matrix (Fin 2) (Fin 2) ℝ) (m : Fin 2 → ℝ) (C : Matrix (Fin 2) (Fin 2) ℝ),
      (∀ N, 2 ≤ N → ∃ fs rs, (demoKFS (mcTransform calmEnv (draw ω) N)).kalmanFilter calmEnv [.s 4, .s 2, .s 7] none 0 none = .ok fs ∧
        (demoKFS (mcTransform calmEnv (draw ω) N)).kalmanSmoother calmEnv fs none = .ok rs ∧
        ∃ g, rs[1]? = some g ∧ HasMoments calmEnv g (M N 1) (V N 1)) ∧
      (∀ z, demoSpace.posterior (fun i _ => if i = 0 then 4 else if i = 1 then 2 else 7) 3 2 z = ENNReal.ofReal (normalPdf m C z)) ∧
      Tendsto (fun N => M N 1) atTop (𝓝 m) ∧ Tendsto (fun N => V N 1) atTop (𝓝 C) := by
  obtain ⟨Ω, hΩ, p, root, z, draw, hp, h1, h2, h3, h4⟩ := normalStreams_exist 2 5
  refine ⟨Ω, hΩ, p, draw, hp, ?_⟩
  filter_upwards [C119_normal_draws h1 h2 h3 h4] with ω hω
  obtain ⟨M, V, a, b⟩ := C119_smoother (env := calmEnv) (draw := draw ω) (K := fun N => demoKFS (mcTransform calmEnv (draw ω) N)) (u := none)
    (prior := none) (n := 2) (k := 1) (by norm_num) demoSpace_good
    (fun N => ⟨rfl, rfl, fun _ => affineFunc_rows _ _, fun _ => affineFunc_rows _ _, rfl, rfl, hasMoments_ofMoment _ _ _⟩)
    (ys := [.s 4, .s 2, .s 7]) (y := fun i _ => if i = 0 then 4 else if i = 1 then 2 else 7)
    (fun i a ha => by
      rcases i with _ | _ | _ | i
      · obtain rfl : Arr.s 4 = a := by simpa using ha
        exact .inr (by simp)
      · obtain rfl : Arr.s 2 = a := by simpa using ha
        exact .inr (by simp)
      · obtain rfl : Arr.s 7 = a := by simpa using ha
        exact .inr (by simp)
      · simp at ha) (by simp)
  obtain ⟨m, C, -, c1, c2, c3⟩ := b hω 1 (by decide)
  refine ⟨M, V, m, C, fun N hN => ?_, c1, c2, c3⟩
  obtain ⟨fs, rs, d1, d2, -, d3⟩ := a N hN
  exact ⟨fs, rs, d1, d2, d3 1 (by decide)⟩

/-- A thousand samples of a standard normal state, a direct measurement with noise of variance one. -/
example : ∃ (Ω : Type) (_ : MeasurableSpace Ω) (pr : Measure Ω) (draw : Ω → Draw), IsProbabilityMeasure pr ∧
    0 < pr {ω | ∃ (q : Gaussian) (μ : Fin 1 → ℝ) (v : ℝ), (KFS.init (mcTransform calmEnv (draw ω) 1000)
      { transition := affineSys (m1 1) (v1 0), measurement := affineSys (m1 1) (v1 0), Q := .m (m1 1), R := .m (m1 1),
        initState := sG 0 1, dt := 1 } none).correct calmEnv (sG 0 1) (.v (v1 3)) none none = .ok q ∧
      HasMoments calmEnv q μ (m1 v) ∧ v < 0} := by
  obtain ⟨Ω, hΩ, pr, draw, h1, h2⟩ := iidDraws_exists (v1 0) (m1 1)
  exact ⟨Ω, hΩ, pr, draw, h1, C119_negative_variance (h := 1) (r := 1) one_pos one_ne_zero one_pos h2 (N := 1000) (by norm_num)
    (fun _ => rfl) (fun _ => affineFunc_rows _ _) (fun _ => rfl) (sG_moments _ _ _) (.inl rfl)⟩

end Verif
