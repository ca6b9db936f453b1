import Verif.Props.Filter
import Verif.Lemmas.Posterior

/-!
# Exact posteriors on linear Gaussian systems: C67
-/

namespace Verif

open Matrix

variable {env : Env} {n k : ℕ}

/-- The filter object describes the state space model: transforms are exact for its maps at the times `t₀ + i dt`, and the noise
covariances and the prior agree. -/
structure Describes (env : Env) (K : KFS) (u : Option ℝ) (t₀ : ℝ) (prior : Gaussian) (L : StateSpace n k) : Prop where
  transition : ∀ i : ℕ, ExactOn env K.transform (fun x => K.transition x (some (t₀ + i * K.dt)) u) (L.A i) (L.b i)
  measurement : ∀ i : ℕ, ExactOn env K.measTransform (fun x => K.measurement x (some (t₀ + i * K.dt)) u) (L.H i) (L.c i)
  Q : K.Q = .m L.Q
  R : K.R = .m L.R
  prior : HasMoments env prior L.m0 L.P0

/-- A Gaussian given by its moments. -/
private noncomputable def gOf (p : (Fin n → ℝ) × Matrix (Fin n) (Fin n) ℝ) : Gaussian := Gaussian.ofMoment (.v p.1) (.m p.2)

private theorem gOf_moments (p : (Fin n → ℝ) × Matrix (Fin n) (Fin n) ℝ) : HasMoments env (gOf p) p.1 p.2 :=
  hasMoments_ofMoment _ _ _

private theorem gain_eq {P : Matrix (Fin n) (Fin n) ℝ} {R : Matrix (Fin k) (Fin k) ℝ} (hP : P.PosDef) (hR : R.PosDef)
    (H : Matrix (Fin k) (Fin n) ℝ) : ((H * P * Hᵀ + R)⁻¹ * (P * Hᵀ)ᵀ)ᵀ = gainMat P H R := by
  rw [transpose_mul, transpose_transpose, posDef_inv_symm (innov_posDef hP.posSemidef hR H), gainMat]

private theorem filter_loop {K : KFS} {u : Option ℝ} {t₀ : ℝ} {prior : Gaussian} {L : StateSpace n k} (hL : L.Good)
    (hK : Describes env K u t₀ prior L) {y : ℕ → Fin k → ℝ} : ∀ (ys : List Arr) (i : ℕ) (g : Gaussian),
    HasMoments env g (L.filt y i).1 (L.filt y i).2 →
    (∀ j a, ys[j]? = some a → IsVec a.squeeze (y (i + j))) →
    K.filterLoop env u g (t₀ + i * K.dt) ys = .ok ((List.range ys.length).map fun j => gOf (L.filt y (i + j + 1)))
  | [], i, g, _, _ => rfl
  | a :: ys, i, g, hg, hy => by
    have hP := hL.filt (y := y) i
    have hS := hL.pred (y := y) i
    obtain ⟨x, hx, hT⟩ := hK.transition i g _ _ hg hP
    have h1 := KFS.predict_of hT hx hK.Q
    obtain ⟨z, hz, hM⟩ := hK.measurement i _ _ _ (hasMoments_ofMoment env (L.A i *ᵥ (L.filt y i).1 + L.b i)
      (L.A i * (L.filt y i).2 * (L.A i)ᵀ + L.Q)) hS
    have h2 := KFS.correct_of (hasMoments_ofMoment env _ _) hM hz (hy 0 a rfl) hK.R
      (posDef_det_ne (innov_posDef hS.posSemidef hL.R _))
    rw [gain_eq hS hL.R, add_zero] at h2
    have h2' : K.correct env (Gaussian.ofMoment (.v (L.A i *ᵥ (L.filt y i).1 + L.b i))
        (.m (L.A i * (L.filt y i).2 * (L.A i)ᵀ + L.Q))) a.squeeze (some (t₀ + i * K.dt)) u = .ok (gOf (L.filt y (i + 1))) := h2
    have e2 : t₀ + (i : ℝ) * K.dt + K.dt = t₀ + ((i + 1 : ℕ) : ℝ) * K.dt := by push_cast; ring
    have h3 := filter_loop hL hK ys (i + 1) (gOf (L.filt y (i + 1))) (gOf_moments _) fun j a ha => by
      have := hy (j + 1) a (by simpa using ha)
      rwa [show i + 1 + j = i + (j + 1) by omega]
    rw [KFS.filterLoop, h1, ok_bind, h2', ok_bind, e2, h3, ok_bind, List.length_cons, List.range_succ_eq_map, List.map_cons,
      List.map_map]
    simp only [py_pure, Except.ok.injEq, List.cons.injEq, add_zero, true_and]
    refine List.map_congr_left fun j _ => ?_
    simp only [Function.comp, Nat.succ_eq_add_one, show i + 1 + j + 1 = i + (j + 1) + 1 by omega]

private theorem smooth_loop {K : KFS} {u : Option ℝ} {prior : Gaussian} {L : StateSpace n k} (hL : L.Good)
    (hK : Describes env K u 0 prior L) {y : ℕ → Fin k → ℝ} (N : ℕ) : ∀ (j : ℕ), j < N →
    K.smoothLoop env u (gOf (L.smth y (j + 1) (N - (j + 1)))) (j * K.dt)
      (((List.range j).map fun i => gOf (L.filt y (i + 1))).reverse) =
      .ok (((List.range j).map fun i => gOf (L.smth y (i + 1) (N - (i + 1)))).reverse)
  | 0, _ => rfl
  | j + 1, hj => by
    have hP := hL.filt (y := y) (j + 1)
    have hS := hL.pred (y := y) (j + 1)
    obtain ⟨x, hx, hT⟩ := hK.transition (j + 1) _ _ _ (gOf_moments (L.filt y (j + 1))) hP
    have h1 := KFS.smooth_of (gOf_moments (L.filt y (j + 1))) (gOf_moments (env := env) (L.smth y (j + 1 + 1) (N - (j + 1 + 1)))) hT hx
      hK.Q (posDef_det_ne hS)
    rw [gain_eq hP hL.Q, zero_add] at h1
    have hd : N - (j + 1) = N - (j + 1 + 1) + 1 := by omega
    have h1' : K.smooth env (gOf (L.filt y (j + 1))) (gOf (L.smth y (j + 1 + 1) (N - (j + 1 + 1))))
        (some (((j + 1 : ℕ) : ℝ) * K.dt)) u = .ok (gOf (L.smth y (j + 1) (N - (j + 1)))) := by
      rw [h1, hd]
      simp only [gOf, StateSpace.smth]
      congr 3
      · rw [mulVec_sub, StateSpace.gain]; abel
      · rw [StateSpace.gain]
        have e1 : gainMat (L.filt y (j + 1)).2 (L.A (j + 1)) L.Q * (L.A (j + 1) * (L.filt y (j + 1)).2 * (L.A (j + 1))ᵀ + L.Q) =
            (L.filt y (j + 1)).2 * (L.A (j + 1))ᵀ := by
          rw [gainMat, Matrix.mul_assoc, posDef_inv_mul hS, Matrix.mul_one]
        have e2 : (gainMat (L.filt y (j + 1)).2 (L.A (j + 1)) L.Q)ᵀ =
            (L.A (j + 1) * (L.filt y (j + 1)).2 * (L.A (j + 1))ᵀ + L.Q)⁻¹ * ((L.filt y (j + 1)).2 * (L.A (j + 1))ᵀ)ᵀ := by
          rw [← gain_eq hP hL.Q, transpose_transpose]
        rw [Matrix.mul_sub, Matrix.sub_mul, e1, condCov]
        conv_lhs => rw [e2]
        conv_rhs => rw [e2]
        simp only [Matrix.mul_assoc]
        abel
    have ih := smooth_loop hL hK (y := y) N j (by omega)
    have e2 : ((j + 1 : ℕ) : ℝ) * K.dt - K.dt = j * K.dt := by push_cast; ring
    rw [List.range_succ, List.map_append, List.map_append, List.reverse_append, List.reverse_append]
    simp only [List.map_cons, List.map_nil, List.reverse_cons, List.reverse_nil, List.nil_append, List.singleton_append]
    rw [KFS.smoothLoop, h1', ok_bind, gOf, copyV_moment, ok_bind, e2]
    rw [gOf] at ih
    rw [ih, ok_bind, py_pure]

/-- The filter's results in closed form. -/
theorem Describes.filter {K : KFS} {u : Option ℝ} {tZero : ℝ} {prior : Option Gaussian} {L : StateSpace n k} (hL : L.Good)
    (hK : Describes env K u tZero (prior.getD K.initState) L) {ys : List Arr} {y : ℕ → Fin k → ℝ}
    (hy : ∀ i a, ys[i]? = some a → IsVec a.squeeze (y i)) :
    ∃ fs, K.kalmanFilter env ys prior tZero u = .ok fs ∧ fs.length = ys.length ∧
      ∀ i < ys.length, ∃ g, fs[i]? = some g ∧ HasMoments env g (L.filt y (i + 1)).1 (L.filt y (i + 1)).2 := by
  have h := filter_loop hL hK ys 0 (prior.getD K.initState) hK.prior (fun j a ha => by rw [zero_add]; exact hy j a ha)
  rw [Nat.cast_zero, zero_mul, add_zero] at h
  refine ⟨_, h, by simp, fun i hi => ⟨gOf (L.filt y (i + 1)), ?_, gOf_moments (L.filt y (i + 1))⟩⟩
  simp [hi]

/-- The smoother's results in closed form. -/
theorem Describes.smoother {K : KFS} {u : Option ℝ} {prior : Option Gaussian} {L : StateSpace n k} (hL : L.Good)
    (hK : Describes env K u 0 (prior.getD K.initState) L) {ys : List Arr} {y : ℕ → Fin k → ℝ}
    (hy : ∀ i a, ys[i]? = some a → IsVec a.squeeze (y i)) (hne : ys ≠ []) :
    ∃ fs rs, K.kalmanFilter env ys prior 0 u = .ok fs ∧ K.kalmanSmoother env fs u = .ok rs ∧ rs.length = ys.length ∧
      ∀ i < ys.length, ∃ g, rs[i]? = some g ∧
        HasMoments env g (L.smth y (i + 1) (ys.length - (i + 1))).1 (L.smth y (i + 1) (ys.length - (i + 1))).2 := by
  have h := filter_loop hL hK ys 0 (prior.getD K.initState) hK.prior (fun j a ha => by rw [zero_add]; exact hy j a ha)
  rw [Nat.cast_zero, zero_mul, add_zero] at h
  simp only [zero_add] at h
  obtain ⟨N, hN⟩ : ∃ N, ys.length = N + 1 := ⟨ys.length - 1, by have := List.length_pos_iff.2 hne; omega⟩
  refine ⟨_, (List.range ys.length).map fun i => gOf (L.smth y (i + 1) (ys.length - (i + 1))), h, ?_, by simp, fun i hi => ?_⟩
  · have hs := smooth_loop hL hK (y := y) (N + 1) N (by omega)
    rw [KFS.kalmanSmoother, List.length_map, List.length_range, hN, List.range_succ, List.map_append, List.reverse_append]
    simp only [List.map_cons, List.map_nil, List.reverse_cons, List.reverse_nil, List.nil_append, List.singleton_append]
    have e : ((N + 1 : ℕ) : ℝ) - 1 = N := by push_cast; ring
    rw [Nat.sub_self] at hs
    rw [gOf, copyV_moment, ok_bind, e]
    rw [show gOf (L.smth y (N + 1) 0) = Gaussian.ofMoment (.v (L.filt y (N + 1)).1) (.m (L.filt y (N + 1)).2) from rfl] at hs
    rw [hs, ok_bind, py_pure, List.map_append]
    simp only [List.reverse_reverse, List.map_cons, List.map_nil, Nat.sub_self]
    rfl
  · refine ⟨gOf (L.smth y (i + 1) (ys.length - (i + 1))), ?_, gOf_moments _⟩
    simp [hi]

/-- **C67.** On a linear Gaussian system (time dependent maps allowed) with positive definite covariances the filter succeeds, and its
`i`-th result is the posterior distribution of the state at the `i`-th measurement given the measurements up to that one. -/
theorem C67_filter_posterior {K : KFS} {u : Option ℝ} {tZero : ℝ} {prior : Option Gaussian} {L : StateSpace n k} (hL : L.Good)
    (hK : Describes env K u tZero (prior.getD K.initState) L) {ys : List Arr} {y : ℕ → Fin k → ℝ}
    (hy : ∀ i a, ys[i]? = some a → IsVec a.squeeze (y i)) :
    ∃ fs, K.kalmanFilter env ys prior tZero u = .ok fs ∧ fs.length = ys.length ∧
      ∀ i < ys.length, ∃ g m C, fs[i]? = some g ∧ HasMoments env g m C ∧ C.PosDef ∧
        ∀ z, L.posterior y (i + 1) (i + 1) z = ENNReal.ofReal (normalPdf m C z) := by
  obtain ⟨fs, h1, h2, h3⟩ := hK.filter hL hy
  refine ⟨fs, h1, h2, fun i hi => ?_⟩
  obtain ⟨g, hg, hm⟩ := h3 i hi
  refine ⟨g, _, _, hg, hm, hL.filt _, fun z => ?_⟩
  rw [hL.posterior le_rfl, Nat.sub_self]; rfl

/-- **C67.** The smoother, run on the filter's results, succeeds, and its `i`-th result is the posterior distribution of that state
given all measurements. -/
theorem C67_smoother_posterior {K : KFS} {u : Option ℝ} {prior : Option Gaussian} {L : StateSpace n k} (hL : L.Good)
    (hK : Describes env K u 0 (prior.getD K.initState) L) {ys : List Arr} {y : ℕ → Fin k → ℝ}
    (hy : ∀ i a, ys[i]? = some a → IsVec a.squeeze (y i)) (hne : ys ≠ []) :
    ∃ fs rs, K.kalmanFilter env ys prior 0 u = .ok fs ∧ K.kalmanSmoother env fs u = .ok rs ∧ rs.length = ys.length ∧
      ∀ i < ys.length, ∃ g m C, rs[i]? = some g ∧ HasMoments env g m C ∧ C.PosDef ∧
        ∀ z, L.posterior y ys.length (i + 1) z = ENNReal.ofReal (normalPdf m C z) := by
  obtain ⟨fs, rs, h1, h2, h3, h4⟩ := hK.smoother hL hy hne
  refine ⟨fs, rs, h1, h2, h3, fun i hi => ?_⟩
  obtain ⟨g, hg, hm⟩ := h4 i hi
  exact ⟨g, _, _, hg, hm, hL.smth _ _, fun z => hL.posterior hi z⟩

/-- The state space model behind `demoKFS`. -/
def demoSpace : StateSpace 2 1 where
  m0 := ![1, 1]
  P0 := diagonal ![2, 3]
  A := fun _ => !![1, 2; 0, 1]
  b := fun _ => ![5, 6]
  Q := diagonal ![1, 1]
  H := fun _ => !![1, 0]
  c := fun _ => ![1]
  R := diagonal fun _ => 1

theorem demoSpace_good : demoSpace.Good :=
  ⟨posDef_two, PosDef.diagonal fun i => by fin_cases i <;> norm_num, posDef_scalar one_pos⟩

/-- A constant velocity model with three measurements of the position, extended Kalman filter and smoother. -/
example : ∃ fs rs, (demoKFS (taylorTransform calmEnv exactJac)).kalmanFilter calmEnv [.s 4, .s 2, .s 7] none 0 none = .ok fs ∧
    (demoKFS (taylorTransform calmEnv exactJac)).kalmanSmoother calmEnv fs none = .ok rs ∧
    ∃ g m C, rs[1]? = some g ∧ HasMoments calmEnv g m C ∧ C.PosDef ∧
      ∀ z, demoSpace.posterior (fun i _ => if i = 0 then 4 else if i = 1 then 2 else 7) 3 2 z = ENNReal.ofReal (normalPdf m C z) := by
  obtain ⟨fs, rs, h1, h2, -, h3⟩ := C67_smoother_posterior (env := calmEnv) (K := demoKFS (taylorTransform calmEnv exactJac)) (u := none)
    (prior := none) demoSpace_good
    ⟨fun _ => C20_taylor_exact calmEnv exactJac_correct (.inl (affineFunc_vec _ _)),
      fun _ => C20_taylor_exact calmEnv exactJac_correct (.inl (affineFunc_vec _ _)), rfl, rfl, hasMoments_ofMoment _ _ _⟩
    (ys := [.s 4, .s 2, .s 7]) (y := fun i _ => if i = 0 then 4 else if i = 1 then 2 else 7)
    (fun i a ha => by
      rcases i with _ | _ | _ | i
      · obtain rfl : Arr.s 4 = a := by simpa using ha
        exact .inr (by simp)
      · obtain rfl : Arr.s 2 = a := by simpa using ha
        exact .inr (by simp)
      · obtain rfl : Arr.s 7 = a := by simpa using ha
        exact .inr (by simp)
      · simp at ha) (by simp)
  exact ⟨fs, rs, h1, h2, h3 1 (by decide)⟩

end Verif
