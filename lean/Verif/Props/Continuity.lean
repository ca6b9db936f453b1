import Verif.Props.MonteCarloFilter
import Verif.Props.IEKS
import Verif.Lemmas.CurvatureUT

/-!
# Results depend continuously on system, prior and data: C120
-/

namespace Verif

open Matrix Filter Topology

variable {env : Env} {n k : ℕ}

/-- Transforms `T 0, T 1, …` of functions `f 0, f 1, …` that in the limit compute the moments of `A x + b`: for states whose moments
converge to a mean and a positive definite covariance they eventually succeed, with results that converge to the exact moments. -/
def ExactInLimit (env : Env) (T : ℕ → Transform) (f : ℕ → Func) (A : Matrix (Fin k) (Fin n) ℝ) (b : Fin k → ℝ) : Prop :=
  ∀ (g : ℕ → Gaussian) (μ : ℕ → Fin n → ℝ) (C : ℕ → Matrix (Fin n) (Fin n) ℝ) (m : Fin n → ℝ) (P : Matrix (Fin n) (Fin n) ℝ),
    P.PosDef → (∀ N, HasMoments env (g N) (μ N) (C N)) → Tendsto μ atTop (𝓝 m) → Tendsto C atTop (𝓝 P) →
    (∀ᶠ N in atTop, (C N).PosDef) →
    ∃ (x : ℕ → Arr) (xv : ℕ → Fin k → ℝ) (S : ℕ → Matrix (Fin k) (Fin k) ℝ) (V : ℕ → Matrix (Fin n) (Fin k) ℝ),
      (∀ᶠ N in atTop, T N (f N) (g N) = .ok (x N, .m (S N), .m (V N)) ∧ IsVec (x N) (xv N) ∧ (S N)ᵀ = S N) ∧
      Tendsto xv atTop (𝓝 (A *ᵥ m + b)) ∧ Tendsto S atTop (𝓝 (A * P * Aᵀ)) ∧ Tendsto V atTop (𝓝 (P * Aᵀ))

/-- Filter objects `K 0, K 1, …`, used with controls, start times and priors of their own, that approach the linear system `L`. -/
structure Approaches (env : Env) (K : ℕ → KFS) (u : ℕ → Option ℝ) (t₀ : ℕ → ℝ) (prior : ℕ → Gaussian) (L : StateSpace n k) : Prop where
  transition : ∀ i : ℕ, ExactInLimit env (fun N => (K N).transform)
    (fun N x => (K N).transition x (some (t₀ N + i * (K N).dt)) (u N)) (L.A i) (L.b i)
  measurement : ∀ i : ℕ, ExactInLimit env (fun N => (K N).measTransform)
    (fun N x => (K N).measurement x (some (t₀ N + i * (K N).dt)) (u N)) (L.H i) (L.c i)
  noise : ∃ Q R, (∀ N, (K N).Q = .m (Q N) ∧ (Q N)ᵀ = Q N) ∧ (∀ N, (K N).R = .m (R N) ∧ (R N)ᵀ = R N) ∧
    Tendsto Q atTop (𝓝 L.Q) ∧ Tendsto R atTop (𝓝 L.R)
  prior : ∃ m P, (∀ N, HasMoments env (prior N) (m N) (P N) ∧ (P N)ᵀ = P N) ∧ Tendsto m atTop (𝓝 L.m0) ∧ Tendsto P atTop (𝓝 L.P0)

private noncomputable def gOf (p : (Fin n → ℝ) × Matrix (Fin n) (Fin n) ℝ) : Gaussian := Gaussian.ofMoment (.v p.1) (.m p.2)

private theorem gOf_moments (p : (Fin n → ℝ) × Matrix (Fin n) (Fin n) ℝ) : HasMoments env (gOf p) p.1 p.2 :=
  hasMoments_ofMoment _ _ _

private theorem det_eventually {a : ℕ} {M : ℕ → Matrix (Fin a) (Fin a) ℝ} {P : Matrix (Fin a) (Fin a) ℝ} (hP : P.PosDef)
    (h : Tendsto M atTop (𝓝 P)) : ∀ᶠ N in atTop, (M N).det ≠ 0 :=
  ((continuous_id.matrix_det.tendsto P).comp h).eventually_ne (posDef_det_ne hP)

/-- One step of the filter. -/
private theorem step {K : ℕ → KFS} {u : ℕ → Option ℝ} {t₀ : ℕ → ℝ} {prior : ℕ → Gaussian} {L : StateSpace n k} (hL : L.Good)
    (hK : Approaches env K u t₀ prior L) {y : ℕ → Fin k → ℝ} (i : ℕ) {g : ℕ → Gaussian} {p : ℕ → (Fin n → ℝ) × Matrix (Fin n) (Fin n) ℝ}
    (hg : ∀ N, HasMoments env (g N) (p N).1 (p N).2) (h1 : Tendsto (fun N => (p N).1) atTop (𝓝 (L.filt y i).1))
    (h2 : Tendsto (fun N => (p N).2) atTop (𝓝 (L.filt y i).2)) (hs : ∀ᶠ N in atTop, ((p N).2)ᵀ = (p N).2)
    {a : ℕ → Arr} {yv : ℕ → Fin k → ℝ} (ha : ∀ N, IsVec (a N).squeeze (yv N)) (hy : Tendsto yv atTop (𝓝 (y i))) :
    ∃ q : ℕ → (Fin n → ℝ) × Matrix (Fin n) (Fin n) ℝ,
      (∀ᶠ N in atTop, ((K N).predict (g N) (some (t₀ N + i * (K N).dt)) (u N) >>= fun s =>
        (K N).correct env s (a N).squeeze (some (t₀ N + i * (K N).dt)) (u N)) = .ok (gOf (q N))) ∧
      Tendsto (fun N => (q N).1) atTop (𝓝 (L.filt y (i + 1)).1) ∧ Tendsto (fun N => (q N).2) atTop (𝓝 (L.filt y (i + 1)).2) ∧
      ∀ᶠ N in atTop, ((q N).2)ᵀ = (q N).2 := by
  obtain ⟨Q, R, hQ, hR, tQ, tR⟩ := hK.noise
  obtain ⟨x, xv, S, V, e1, tx, tS, -⟩ := hK.transition i g _ _ _ _ (hL.filt i) hg h1 h2 (posDef_eventually (hL.filt i) h2 hs)
  have hP := hL.pred (y := y) i
  have tP := tS.add tQ
  have sP : ∀ᶠ N in atTop, (S N + Q N)ᵀ = S N + Q N := by
    filter_upwards [e1] with N hN
    rw [transpose_add, hN.2.2, (hQ N).2]
  obtain ⟨z, zv, Z, W, e2, tz, tZ, tW⟩ := hK.measurement i (fun N => gOf (xv N, S N + Q N)) _ _ _ _ hP (fun N => gOf_moments _) tx tP
    (posDef_eventually hP tP sP)
  have hS := innov_posDef hP.posSemidef hL.R (L.H i)
  have tI := tZ.add tR
  have tG := matrix_tendsto_T (matrix_tendsto_mul (matrix_tendsto_inv hS tI) (matrix_tendsto_T tW))
  have c1 := tx.add (matrix_tendsto_mulVec tG (hy.sub tz))
  have c2 := tP.sub (matrix_tendsto_mul tG (matrix_tendsto_T tW))
  rw [gainMat_eq hP.posSemidef hL.R] at c1 c2
  refine ⟨fun N => (xv N + ((Z N + R N)⁻¹ * (W N)ᵀ)ᵀ *ᵥ (yv N - zv N), S N + Q N - ((Z N + R N)⁻¹ * (W N)ᵀ)ᵀ * (W N)ᵀ), ?_, c1, c2, ?_⟩
  · filter_upwards [e1, e2, det_eventually hS tI] with N a1 a2 a3
    rw [KFS.predict_of a1.1 a1.2.1 (hQ N).1, ok_bind]
    exact KFS.correct_of (gOf_moments (xv N, S N + Q N)) a2.1 a2.2.1 (ha N) (hR N).1 a3
  · filter_upwards [sP, e2] with N a1 a2
    have hI : ((Z N + R N)⁻¹)ᵀ = (Z N + R N)⁻¹ := by
      rw [transpose_nonsing_inv, transpose_add, a2.2.2, (hR N).2]
    generalize (Z N + R N)⁻¹ = I at hI
    rw [transpose_sub, a1]
    simp only [transpose_mul, transpose_transpose, hI, Matrix.mul_assoc]

private theorem loop {K : ℕ → KFS} {u : ℕ → Option ℝ} {t₀ : ℕ → ℝ} {prior : ℕ → Gaussian} {L : StateSpace n k} (hL : L.Good)
    (hK : Approaches env K u t₀ prior L) {y : ℕ → Fin k → ℝ} : ∀ (W i : ℕ) (ys : ℕ → List Arr) (yv : ℕ → ℕ → Fin k → ℝ) (g : ℕ → Gaussian)
    (p : ℕ → (Fin n → ℝ) × Matrix (Fin n) (Fin n) ℝ), (∀ N, (ys N).length = W) →
    (∀ N j a, (ys N)[j]? = some a → IsVec a.squeeze (yv N j)) → (∀ j < W, Tendsto (fun N => yv N j) atTop (𝓝 (y (i + j)))) →
    (∀ N, HasMoments env (g N) (p N).1 (p N).2) → Tendsto (fun N => (p N).1) atTop (𝓝 (L.filt y i).1) →
    Tendsto (fun N => (p N).2) atTop (𝓝 (L.filt y i).2) → (∀ᶠ N in atTop, ((p N).2)ᵀ = (p N).2) →
    ∃ q : ℕ → ℕ → (Fin n → ℝ) × Matrix (Fin n) (Fin n) ℝ,
      (∀ᶠ N in atTop, (K N).filterLoop env (u N) (g N) (t₀ N + i * (K N).dt) (ys N) = .ok ((List.range W).map fun j => gOf (q N j))) ∧
      ∀ j < W, Tendsto (fun N => (q N j).1) atTop (𝓝 (L.filt y (i + j + 1)).1) ∧
        Tendsto (fun N => (q N j).2) atTop (𝓝 (L.filt y (i + j + 1)).2) ∧ ∀ᶠ N in atTop, ((q N j).2)ᵀ = (q N j).2
  | 0, i, ys, yv, g, p, hlen, _, _, _, _, _, _ => by
    refine ⟨fun _ _ => (0, 0), Eventually.of_forall fun N => ?_, fun j hj => absurd hj (by omega)⟩
    rw [List.length_eq_zero_iff.1 (hlen N)]; rfl
  | W + 1, i, ys, yv, g, p, hlen, hy, ty, hg, h1, h2, hs => by
    have hc : ∀ N, ∃ a l, ys N = a :: l := fun N => List.exists_cons_of_length_eq_add_one (hlen N)
    choose a l hal using hc
    obtain ⟨q, e, t1, t2, t3⟩ := step hL hK i hg h1 h2 hs (a := a) (yv := fun N => yv N 0) (fun N => hy N 0 (a N) (by rw [hal]; rfl))
      (by simpa using ty 0 (by omega))
    obtain ⟨r, e', t'⟩ := loop hL hK W (i + 1) l (fun N j => yv N (j + 1)) (fun N => gOf (q N)) q
      (fun N => by have := hlen N; rw [hal] at this; simpa using this) (fun N j b hb => hy N (j + 1) b (by rw [hal]; simpa using hb))
      (fun j hj => by have := ty (j + 1) (by omega); rwa [show i + (j + 1) = i + 1 + j by omega] at this) (fun N => gOf_moments _) t1 t2 t3
    refine ⟨fun N j => j.casesOn (q N) (r N), ?_, fun j hj => ?_⟩
    · filter_upwards [e, e'] with N a1 a2
      have e2 : t₀ N + (i : ℝ) * (K N).dt + (K N).dt = t₀ N + ((i + 1 : ℕ) : ℝ) * (K N).dt := by push_cast; ring
      rw [hal, KFS.filterLoop]
      have a1' : ∀ {β : Type} (F : Gaussian → Py β), ((K N).predict (g N) (some (t₀ N + i * (K N).dt)) (u N) >>= fun s =>
          (K N).correct env s (a N).squeeze (some (t₀ N + i * (K N).dt)) (u N) >>= F) = F (gOf (q N)) := fun F => by
        rw [← ok_bind (gOf (q N)) F, ← a1, bind_assoc]
      rw [a1', e2, a2, ok_bind, List.range_succ_eq_map, List.map_cons, List.map_map]
      rfl
    · cases j with
      | zero => exact ⟨t1, t2, t3⟩
      | succ j =>
        have := t' j (by omega)
        rwa [show i + 1 + j + 1 = i + (j + 1) + 1 by omega] at this

/-- **C120.** Let filter objects approach a linear Gaussian system with positive definite covariances (their maps, noise, priors and
transforms may all differ from it), and let their measurements converge. Then eventually all their filters succeed, and the reported
means and covariances converge to those of the exact posterior distributions. -/
theorem C120_filter {K : ℕ → KFS} {u : ℕ → Option ℝ} {tZero : ℕ → ℝ} {prior : ℕ → Option Gaussian} {L : StateSpace n k} (hL : L.Good)
    (hK : Approaches env K u tZero (fun N => (prior N).getD (K N).initState) L) {W : ℕ} {ys : ℕ → List Arr} {yv : ℕ → ℕ → Fin k → ℝ}
    {y : ℕ → Fin k → ℝ} (hlen : ∀ N, (ys N).length = W) (hy : ∀ N i a, (ys N)[i]? = some a → IsVec a.squeeze (yv N i))
    (ty : ∀ i < W, Tendsto (fun N => yv N i) atTop (𝓝 (y i))) :
    ∃ (M : ℕ → ℕ → Fin n → ℝ) (V : ℕ → ℕ → Matrix (Fin n) (Fin n) ℝ),
      (∀ᶠ N in atTop, ∃ fs, (K N).kalmanFilter env (ys N) (prior N) (tZero N) (u N) = .ok fs ∧ fs.length = W ∧
        ∀ i < W, ∃ g, fs[i]? = some g ∧ HasMoments env g (M N i) (V N i)) ∧
      ∀ i < W, ∃ m C, C.PosDef ∧ (∀ z, L.posterior y (i + 1) (i + 1) z = ENNReal.ofReal (normalPdf m C z)) ∧
        Tendsto (fun N => M N i) atTop (𝓝 m) ∧ Tendsto (fun N => V N i) atTop (𝓝 C) := by
  obtain ⟨m, P, hp, tm, tP⟩ := hK.prior
  obtain ⟨q, e, t⟩ := loop hL hK (y := y) W 0 ys yv (fun N => (prior N).getD (K N).initState) (fun N => (m N, P N)) hlen hy
    (by simpa using ty) (fun N => (hp N).1) tm tP (Eventually.of_forall fun N => (hp N).2)
  refine ⟨fun N i => (q N i).1, fun N i => (q N i).2, ?_, fun i hi => ?_⟩
  · filter_upwards [e] with N hN
    rw [Nat.cast_zero, zero_mul, add_zero] at hN
    exact ⟨_, hN, by simp, fun i hi => ⟨gOf (q N i), by simp [hi], gOf_moments (q N i)⟩⟩
  · obtain ⟨t1, t2, -⟩ := t i hi
    rw [zero_add] at t1 t2
    refine ⟨_, _, hL.filt _, fun z => ?_, t1, t2⟩
    rw [hL.posterior le_rfl, Nat.sub_self]; rfl

/-! ## The smoother -/

private theorem smooth_limit {L : StateSpace n k} (hL : L.Good) (y : ℕ → Fin k → ℝ) (i d : ℕ) :
    L.smth y i (d + 1) = ((L.filt y i).1 + gainMat (L.filt y i).2 (L.A i) L.Q *ᵥ ((L.smth y (i + 1) d).1 - (L.A i *ᵥ (L.filt y i).1 + L.b i)),
      (L.filt y i).2 + gainMat (L.filt y i).2 (L.A i) L.Q * ((L.smth y (i + 1) d).2 - (L.A i * (L.filt y i).2 * (L.A i)ᵀ + L.Q)) *
        (gainMat (L.filt y i).2 (L.A i) L.Q)ᵀ) := by
  have hP := hL.filt (y := y) i
  have hS := hL.pred (y := y) i
  simp only [StateSpace.smth]
  congr 1
  · rw [mulVec_sub, StateSpace.gain]; abel
  · rw [StateSpace.gain]
    have e1 : gainMat (L.filt y i).2 (L.A i) L.Q * (L.A i * (L.filt y i).2 * (L.A i)ᵀ + L.Q) = (L.filt y i).2 * (L.A i)ᵀ := by
      rw [gainMat, Matrix.mul_assoc, posDef_inv_mul hS, Matrix.mul_one]
    have e2 : (gainMat (L.filt y i).2 (L.A i) L.Q)ᵀ =
        (L.A i * (L.filt y i).2 * (L.A i)ᵀ + L.Q)⁻¹ * ((L.filt y i).2 * (L.A i)ᵀ)ᵀ := by
      rw [← gainMat_eq hP.posSemidef hL.Q, transpose_transpose]
    rw [Matrix.mul_sub, Matrix.sub_mul, e1, condCov]
    conv_lhs => rw [e2]
    conv_rhs => rw [e2]
    simp only [Matrix.mul_assoc]
    abel

private theorem back {K : ℕ → KFS} {u : ℕ → Option ℝ} {prior : ℕ → Gaussian} {L : StateSpace n k} (hL : L.Good)
    (hK : Approaches env K u (fun _ => 0) prior L) {y : ℕ → Fin k → ℝ} {W : ℕ} {q : ℕ → ℕ → (Fin n → ℝ) × Matrix (Fin n) (Fin n) ℝ}
    (hq : ∀ j < W, Tendsto (fun N => (q N j).1) atTop (𝓝 (L.filt y (j + 1)).1) ∧
        Tendsto (fun N => (q N j).2) atTop (𝓝 (L.filt y (j + 1)).2) ∧ ∀ᶠ N in atTop, ((q N j).2)ᵀ = (q N j).2) :
    ∀ (j : ℕ), j < W → ∀ s : ℕ → (Fin n → ℝ) × Matrix (Fin n) (Fin n) ℝ,
    Tendsto (fun N => (s N).1) atTop (𝓝 (L.smth y (j + 1) (W - (j + 1))).1) →
    Tendsto (fun N => (s N).2) atTop (𝓝 (L.smth y (j + 1) (W - (j + 1))).2) →
    ∃ r : ℕ → ℕ → (Fin n → ℝ) × Matrix (Fin n) (Fin n) ℝ,
      (∀ᶠ N in atTop, (K N).smoothLoop env (u N) (gOf (s N)) (j * (K N).dt) (((List.range j).map fun i => gOf (q N i)).reverse) =
        .ok (((List.range j).map fun i => gOf (r N i)).reverse)) ∧
      ∀ i < j, Tendsto (fun N => (r N i).1) atTop (𝓝 (L.smth y (i + 1) (W - (i + 1))).1) ∧
        Tendsto (fun N => (r N i).2) atTop (𝓝 (L.smth y (i + 1) (W - (i + 1))).2)
  | 0, _, s, _, _ => ⟨fun _ _ => (0, 0), Eventually.of_forall fun _ => rfl, fun i hi => absurd hi (by omega)⟩
  | j + 1, hj, s, s1, s2 => by
    obtain ⟨Q, R, hQ, hR, tQ, tR⟩ := hK.noise
    obtain ⟨h1, h2, h3⟩ := hq j (by omega)
    obtain ⟨x, xv, S, V, e1, tx, tS, tV⟩ := hK.transition (j + 1) (fun N => gOf (q N j)) _ _ _ _ (hL.filt (j + 1)) (fun N => gOf_moments _)
      h1 h2 (posDef_eventually (hL.filt (j + 1)) h2 h3)
    have hS := hL.pred (y := y) (j + 1)
    have tI := tS.add tQ
    have tG := matrix_tendsto_T (matrix_tendsto_mul (matrix_tendsto_inv hS tI) (matrix_tendsto_T tV))
    have c1 := h1.add (matrix_tendsto_mulVec tG (s1.sub tx))
    have c2 := h2.add (matrix_tendsto_mul (matrix_tendsto_mul tG (s2.sub tI)) (matrix_tendsto_T tG))
    rw [gainMat_eq (hL.filt (y := y) (j + 1)).posSemidef hL.Q] at c1 c2
    have hd : W - (j + 1) = W - (j + 1 + 1) + 1 := by omega
    have hl := smooth_limit hL y (j + 1) (W - (j + 1 + 1))
    rw [← hd] at hl
    obtain ⟨r, e', t'⟩ := back hL hK hq j (by omega) (fun N => ((q N j).1 + ((S N + Q N)⁻¹ * (V N)ᵀ)ᵀ *ᵥ ((s N).1 - xv N),
      (q N j).2 + ((S N + Q N)⁻¹ * (V N)ᵀ)ᵀ * ((s N).2 - (S N + Q N)) * (((S N + Q N)⁻¹ * (V N)ᵀ)ᵀ)ᵀ)) (by rw [hl]; exact c1)
      (by rw [hl]; exact c2)
    refine ⟨fun N i => if i = j then ((q N j).1 + ((S N + Q N)⁻¹ * (V N)ᵀ)ᵀ *ᵥ ((s N).1 - xv N),
      (q N j).2 + ((S N + Q N)⁻¹ * (V N)ᵀ)ᵀ * ((s N).2 - (S N + Q N)) * (((S N + Q N)⁻¹ * (V N)ᵀ)ᵀ)ᵀ) else r N i, ?_, fun i hi => ?_⟩
    · filter_upwards [e1, e', det_eventually hS tI] with N a1 a2 a3
      have a1' := a1.1
      rw [zero_add] at a1'
      have b1 := KFS.smooth_of (gOf_moments (q N j)) (gOf_moments (env := env) (s N)) a1' a1.2.1 (hQ N).1 a3
      have e2 : ((j + 1 : ℕ) : ℝ) * (K N).dt - (K N).dt = j * (K N).dt := by push_cast; ring
      rw [List.range_succ, List.map_append, List.map_append, List.reverse_append, List.reverse_append]
      simp only [List.map_cons, List.map_nil, List.reverse_cons, List.reverse_nil, List.nil_append, List.singleton_append, if_true]
      rw [KFS.smoothLoop, b1, ok_bind, copyV_moment, ok_bind, e2]
      rw [gOf] at a2
      rw [a2, ok_bind, py_pure]
      congr 2
      rw [List.reverse_inj]
      refine List.map_congr_left fun i hi => ?_
      rw [if_neg (by have := List.mem_range.1 hi; omega)]
    · rcases eq_or_ne i j with rfl | hij
      · simp only [if_true]
        rw [hl]
        exact ⟨c1, c2⟩
      · simp only [if_neg hij]
        exact t' i (by omega)

/-- **C120** (smoother). Eventually the smoothers, run on these results, succeed as well, and their means and covariances converge to those
of the exact posterior distributions of the states given all measurements. -/
theorem C120_smoother {K : ℕ → KFS} {u : ℕ → Option ℝ} {prior : ℕ → Option Gaussian} {L : StateSpace n k} (hL : L.Good)
    (hK : Approaches env K u (fun _ => 0) (fun N => (prior N).getD (K N).initState) L) {W : ℕ} (hW : 0 < W) {ys : ℕ → List Arr}
    {yv : ℕ → ℕ → Fin k → ℝ} {y : ℕ → Fin k → ℝ} (hlen : ∀ N, (ys N).length = W)
    (hy : ∀ N i a, (ys N)[i]? = some a → IsVec a.squeeze (yv N i)) (ty : ∀ i < W, Tendsto (fun N => yv N i) atTop (𝓝 (y i))) :
    ∃ (M : ℕ → ℕ → Fin n → ℝ) (V : ℕ → ℕ → Matrix (Fin n) (Fin n) ℝ),
      (∀ᶠ N in atTop, ∃ fs rs, (K N).kalmanFilter env (ys N) (prior N) 0 (u N) = .ok fs ∧ (K N).kalmanSmoother env fs (u N) = .ok rs ∧
        rs.length = W ∧ ∀ i < W, ∃ g, rs[i]? = some g ∧ HasMoments env g (M N i) (V N i)) ∧
      ∀ i < W, ∃ m C, C.PosDef ∧ (∀ z, L.posterior y W (i + 1) z = ENNReal.ofReal (normalPdf m C z)) ∧
        Tendsto (fun N => M N i) atTop (𝓝 m) ∧ Tendsto (fun N => V N i) atTop (𝓝 C) := by
  obtain ⟨m, P, hp, tm, tP⟩ := hK.prior
  obtain ⟨q, e, t⟩ := loop hL hK (y := y) W 0 ys yv (fun N => (prior N).getD (K N).initState) (fun N => (m N, P N)) hlen hy
    (by simpa using ty) (fun N => (hp N).1) tm tP (Eventually.of_forall fun N => (hp N).2)
  simp only [zero_add] at t
  obtain ⟨w, rfl⟩ : ∃ w, W = w + 1 := ⟨W - 1, by omega⟩
  obtain ⟨t1, t2, -⟩ := t w (by omega)
  obtain ⟨r, e', t'⟩ := back hL hK t w (by omega) (fun N => q N w) (by rw [Nat.sub_self]; exact t1) (by rw [Nat.sub_self]; exact t2)
  refine ⟨fun N i => if i = w then (q N w).1 else (r N i).1, fun N i => if i = w then (q N w).2 else (r N i).2, ?_, fun i hi => ?_⟩
  · filter_upwards [e, e'] with N a1 a2
    rw [Nat.cast_zero, zero_mul, add_zero] at a1
    refine ⟨_, ((List.range w).map fun i => gOf (r N i)) ++ [gOf (q N w)], a1, ?_, by simp, fun i hi => ?_⟩
    · rw [KFS.kalmanSmoother, List.length_map, List.length_range, List.range_succ, List.map_append, List.reverse_append]
      simp only [List.map_cons, List.map_nil, List.reverse_cons, List.reverse_nil, List.nil_append, List.singleton_append]
      have e : ((w + 1 : ℕ) : ℝ) - 1 = w := by push_cast; ring
      rw [gOf, copyV_moment, ok_bind, e]
      rw [gOf] at a2
      rw [a2, ok_bind, py_pure]
      simp only [List.reverse_reverse]
    · rcases eq_or_ne i w with rfl | hiw
      · exact ⟨gOf (q N i), by simp, by simpa using gOf_moments (q N i)⟩
      · have : i < w := by omega
        exact ⟨gOf (r N i), by simp [List.getElem?_append, this], by simpa [hiw] using gOf_moments (r N i)⟩
  · refine ⟨_, _, hL.smth (y := y) (w + 1 - (i + 1)) (i + 1), fun z => hL.posterior hi z, ?_⟩
    rcases eq_or_ne i w with rfl | hiw
    · simp only [if_true, Nat.sub_self]
      exact ⟨t1, t2⟩
    · simp only [if_neg hiw]
      exact t' i (by omega)

/-! ## Transforms that are exact in the limit -/

/-- **C120** (exact transforms). Transforms that are exact on affine maps whose coefficients converge are exact in the limit. -/
theorem C120_exact {T : ℕ → Transform} {f : ℕ → Func} {A : ℕ → Matrix (Fin k) (Fin n) ℝ} {b : ℕ → Fin k → ℝ}
    {A' : Matrix (Fin k) (Fin n) ℝ} {b' : Fin k → ℝ} (h : ∀ N, ExactOn env (T N) (f N) (A N) (b N)) (tA : Tendsto A atTop (𝓝 A'))
    (tb : Tendsto b atTop (𝓝 b')) : ExactInLimit env T f A' b' := by
  classical
  intro g μ C m P hP hg tμ tC hC
  refine ⟨fun N => if hN : (C N).PosDef then (h N _ _ _ (hg N) hN).choose else .s 0, fun N => A N *ᵥ μ N + b N, fun N => A N * C N * (A N)ᵀ,
    fun N => C N * (A N)ᵀ, ?_, (matrix_tendsto_mulVec tA tμ).add tb,
    matrix_tendsto_mul (matrix_tendsto_mul tA tC) (matrix_tendsto_T tA), matrix_tendsto_mul tC (matrix_tendsto_T tA)⟩
  filter_upwards [hC] with N hN
  have := (h N _ _ _ (hg N) hN).choose_spec
  rw [dif_pos hN]
  refine ⟨this.2, this.1, ?_⟩
  rw [transpose_mul, transpose_mul, transpose_transpose, posSemidef_symm hN.posSemidef, Matrix.mul_assoc]

/-- **C120** (Monte Carlo transforms). With faithful draws the Monte Carlo transform with a growing number of samples is exact in the
limit, on affine maps whose coefficients may change with the number of samples. -/
theorem C120_monte_carlo {draw : Draw} (hd : Faithful n draw) (hnk : n + k ≠ 1) {f : ℕ → Func} {A : ℕ → Matrix (Fin k) (Fin n) ℝ}
    {b : ℕ → Fin k → ℝ} {A' : Matrix (Fin k) (Fin n) ℝ} {b' : Fin k → ℝ} (h : ∀ N, AffineRows (f N) (A N) (b N))
    (tA : Tendsto A atTop (𝓝 A')) (tb : Tendsto b atTop (𝓝 b')) : ExactInLimit env (fun N => mcTransform env draw N) f A' b' := by
  intro g μ C m P hP hg tμ tC hC
  obtain ⟨t1, t2⟩ := hd μ C m P hP tμ tC hC
  refine ⟨fun N => .v (A N *ᵥ sampleMean (draw N (μ N) (C N)) + b N), fun N => A N *ᵥ sampleMean (draw N (μ N) (C N)) + b N, fun N => A N * sampleCov (draw N (μ N) (C N)) * (A N)ᵀ,
    fun N => sampleCov (draw N (μ N) (C N)) * (A N)ᵀ, ?_, (matrix_tendsto_mulVec tA t1).add tb,
    matrix_tendsto_mul (matrix_tendsto_mul tA t2) (matrix_tendsto_T tA), matrix_tendsto_mul t2 (matrix_tendsto_T tA)⟩
  filter_upwards [eventually_ge_atTop 2] with N hN
  refine ⟨C18_monte_carlo_affine (env := env) draw hN hnk (hg N) (h N), .inl rfl, ?_⟩
  have hs : (sampleCov (draw N (μ N) (C N)))ᵀ = sampleCov (draw N (μ N) (C N)) := by
    ext i j
    rw [transpose_apply, sampleCov_apply, sampleCov_apply, covEntry_comm]
  rw [transpose_mul, transpose_mul, transpose_transpose, hs, Matrix.mul_assoc]

/-- **C120** (linearisation). The Taylor transform of nonlinear functions that approach an affine map, with values and derivatives that
converge along converging points, is exact in the limit. -/
theorem C120_taylor {jac : Jac} (hjac : CorrectJac jac) {f : ℕ → Func} {F : ℕ → (Fin n → ℝ) → Fin k → ℝ} (hf : ∀ N, VecFunc (f N) (F N))
    {D : ℕ → (Fin n → ℝ) → (Fin n → ℝ) →L[ℝ] (Fin k → ℝ)} (hD : ∀ N x, HasFDerivAt (F N) (D N x) x) {A : Matrix (Fin k) (Fin n) ℝ}
    {b : Fin k → ℝ} (hF : ∀ (x : ℕ → Fin n → ℝ) (m : Fin n → ℝ), Tendsto x atTop (𝓝 m) →
      Tendsto (fun N => F N (x N)) atTop (𝓝 (A *ᵥ m + b)) ∧ Tendsto (fun N => jacMat (D N (x N))) atTop (𝓝 A)) :
    ExactInLimit env (fun _ => taylorTransform env jac) f A b := by
  intro g μ C m P hP hg tμ tC hC
  obtain ⟨t1, t2⟩ := hF μ m tμ
  refine ⟨fun N => (Arr.v (F N (μ N))).squeeze, fun N => F N (μ N), fun N => jacMat (D N (μ N)) * C N * (jacMat (D N (μ N)))ᵀ,
    fun N => C N * (jacMat (D N (μ N)))ᵀ, ?_, t1, matrix_tendsto_mul (matrix_tendsto_mul t2 tC) (matrix_tendsto_T t2),
    matrix_tendsto_mul tC (matrix_tendsto_T t2)⟩
  filter_upwards [hC] with N hN
  refine ⟨C17_taylor_linearises hjac (hg N) (hf N) (hD N (μ N)), .inr rfl, ?_⟩
  rw [transpose_mul, transpose_mul, transpose_transpose, posSemidef_symm hN.posSemidef, Matrix.mul_assoc]

private theorem bdd_mul_zero {f g : ℕ → ℝ} (hf : ∃ B, ∀ N, |f N| ≤ B) (hg : Tendsto g atTop (𝓝 0)) :
    Tendsto (fun N => f N * g N) atTop (𝓝 0) := by
  obtain ⟨B, hB⟩ := hf
  have h := (hg.abs).const_mul B
  rw [abs_zero, mul_zero] at h
  refine squeeze_zero_norm (fun N => ?_) h
  rw [Real.norm_eq_abs, abs_mul]
  exact mul_le_mul_of_nonneg_right (hB N) (abs_nonneg _)

private theorem bdd_of_tendsto {f : ℕ → ℝ} {a : ℝ} (h : Tendsto f atTop (𝓝 a)) : ∃ B, ∀ N, |f N| ≤ B := by
  obtain ⟨B, hB⟩ := h.abs.bddAbove_range
  exact ⟨B, fun N => hB ⟨N, rfl⟩⟩

private theorem root_bound {L C : Matrix (Fin n) (Fin n) ℝ} (h : Lᵀ * L = C) (r j : Fin n) : |L r j| ≤ 1 + C j j := by
  have h1 : C j j = ∑ r, L r j ^ 2 := by
    rw [← h, Matrix.mul_apply]
    exact Finset.sum_congr rfl fun b _ => by rw [transpose_apply, sq]
  have h2 : L r j ^ 2 ≤ ∑ r, L r j ^ 2 := Finset.single_le_sum (f := fun r => L r j ^ 2) (fun _ _ => sq_nonneg _) (Finset.mem_univ r)
  rw [← h1] at h2
  nlinarith [sq_abs (L r j), sq_nonneg (|L r j| - 1), abs_nonneg (L r j)]

/-- **C120** (unscented transform). The unscented transform of nonlinear functions that approach an affine map, uniformly on bounded
sets, is exact in the limit. No derivatives are needed. -/
theorem C120_unscented {alpha beta kappa : ℝ} {u : UT} (hu : UT.init n alpha beta kappa = .ok u) (hpos : 0 < alpha ^ 2 * (n + kappa))
    {f : ℕ → Func} {F : ℕ → (Fin n → ℝ) → Fin k → ℝ} (hf : ∀ N, OnRows (f N) (F N)) {A : Matrix (Fin k) (Fin n) ℝ} {b : Fin k → ℝ}
    (hF : ∀ x : ℕ → Fin n → ℝ, (∃ B, ∀ N j, |x N j| ≤ B) → Tendsto (fun N => F N (x N) - (A *ᵥ x N + b)) atTop (𝓝 0)) :
    ExactInLimit env (fun _ => u.transform env) f A b := by
  classical
  intro g μ C m P hP hg tμ tC hC
  have hc : 0 < alpha * alpha * (n + kappa) := by rwa [← sq]
  set s := Real.sqrt (alpha * alpha * (n + kappa)) with hs
  set w := sigmaW n alpha kappa with hw
  set T : (Fin n → ℝ) →L[ℝ] (Fin k → ℝ) := LinearMap.toContinuousLinearMap A.mulVecLin with hT
  have hTa : ∀ x i, T x i = (A *ᵥ x) i := fun x i => rfl
  have hTA : jacMat T = A := by
    ext i j
    change T (Pi.single j 1) i = A i j
    rw [hTa]; simp
  let R : ℕ → Matrix (Fin n) (Fin n) ℝ := fun N => if h : (C N).PosDef then cholU h else 0
  have hR : ∀ N, (C N).PosDef → (R N)ᵀ * R N = C N := fun N h => by
    simp only [R, dif_pos h]
    exact (cholU_spec h).mul_eq
  have hRb : ∀ r j, ∃ B, ∀ N, |R N r j| ≤ B := fun r j => by
    obtain ⟨B, hB⟩ := bdd_of_tendsto ((tendsto_pi_nhds.1 (tendsto_pi_nhds.1 tC j) j).const_add 1)
    refine ⟨B, fun N => ?_⟩
    by_cases h : (C N).PosDef
    · exact (root_bound (hR N h) r j).trans ((le_abs_self _).trans (hB N))
    · simp only [R, dif_neg h, Matrix.zero_apply, abs_zero]
      exact (abs_nonneg _).trans (hB N)
  have hdb : ∀ a j, ∃ B, ∀ N, |sigmaDisp (R N) s a j| ≤ B := fun a j => by
    rcases a with r | r <;> obtain ⟨B, hB⟩ := hRb r j <;> refine ⟨s * B, fun N => ?_⟩ <;>
      simp only [sigmaDisp, abs_neg, abs_mul, abs_of_nonneg (Real.sqrt_nonneg _), hs] <;>
      exact mul_le_mul_of_nonneg_left (hB N) (Real.sqrt_nonneg _)
  have hμb : ∀ j, ∃ B, ∀ N, |μ N j| ≤ B := fun j => bdd_of_tendsto (tendsto_pi_nhds.1 tμ j)
  have huni : ∀ x : ℕ → Fin n → ℝ, (∀ j, ∃ B, ∀ N, |x N j| ≤ B) → ∃ B, ∀ N j, |x N j| ≤ B := fun x hx => by
    choose B hB using hx
    exact ⟨∑ j, |B j|, fun N j => (hB j N).trans ((le_abs_self _).trans
      (Finset.single_le_sum (f := fun j => |B j|) (fun _ _ => abs_nonneg _) (Finset.mem_univ j)))⟩
  have e0 := fun i => tendsto_pi_nhds.1 (hF μ (huni μ hμb)) i
  have tF : ∀ i, Tendsto (fun N => F N (μ N) i) atTop (𝓝 ((A *ᵥ m + b) i)) := fun i => by
    have h := (e0 i).add (tendsto_pi_nhds.1 ((matrix_tendsto_mulVec (tendsto_const_nhds (x := A)) tμ).add (tendsto_const_nhds (x := b))) i)
    simpa using h
  have trem : ∀ a i, Tendsto (fun N => sigmaRem (F N) (fun _ => T) (μ N) (R N) s a i) atTop (𝓝 0) := fun a i => by
    have e1 := tendsto_pi_nhds.1 (hF (fun N => μ N + sigmaDisp (R N) s a) (huni _ fun j => by
      obtain ⟨B, hB⟩ := hμb j
      obtain ⟨B', hB'⟩ := hdb a j
      exact ⟨B + B', fun N => (abs_add_le _ _).trans (add_le_add (hB N) (hB' N))⟩)) i
    have h := e1.sub (e0 i)
    simp only [Pi.zero_apply, sub_zero] at h
    refine h.congr fun N => ?_
    simp only [sigmaRem, hTa, mulVec_add, Pi.sub_apply, Pi.add_apply]
    ring
  have hTb : ∀ a i, ∃ B, ∀ N, |T (sigmaDisp (R N) s a) i| ≤ B := fun a i => by
    choose B hB using hdb a
    refine ⟨∑ j, |A i j| * B j, fun N => ?_⟩
    rw [hTa, mulVec, dotProduct]
    refine (Finset.abs_sum_le_sum_abs _ _).trans (Finset.sum_le_sum fun j _ => ?_)
    rw [abs_mul]
    exact mul_le_mul_of_nonneg_left (hB j N) (abs_nonneg _)
  have tsum : ∀ φ : Fin n ⊕ Fin n → ℕ → ℝ, (∀ a, Tendsto (φ a) atTop (𝓝 0)) → Tendsto (fun N => ∑ a, w * φ a N) atTop (𝓝 0) := fun φ hφ => by
    have h := tendsto_finsetSum Finset.univ fun a _ => (hφ a).const_mul w
    simpa using h
  let M : ℕ → Fin k → ℝ := fun N i => F N (μ N) i + ∑ a, w * sigmaRem (F N) (fun _ => T) (μ N) (R N) s a i
  have tM : ∀ i, Tendsto (fun N => M N i) atTop (𝓝 ((A *ᵥ m + b) i)) := fun i => by
    have h := (tF i).add (tsum _ fun a => trem a i)
    rwa [add_zero] at h
  have tMF : ∀ i, Tendsto (fun N => M N i - F N (μ N) i) atTop (𝓝 0) := fun i => by
    have h := (tM i).sub (tF i)
    simpa using h
  have tACA := matrix_tendsto_mul (matrix_tendsto_mul (tendsto_const_nhds (x := A)) tC) (tendsto_const_nhds (x := Aᵀ))
  have tCA := matrix_tendsto_mul tC (tendsto_const_nhds (x := Aᵀ))
  let S : ℕ → Matrix (Fin k) (Fin k) ℝ := fun N => of fun i j => ∑ l, UT.covWeights n alpha beta kappa l *
    ((F N (sigmaMat (μ N) (R N) s l) i - M N i) * (F N (sigmaMat (μ N) (R N) s l) j - M N j))
  let V : ℕ → Matrix (Fin n) (Fin k) ℝ := fun N => of fun j i => ∑ l, UT.covWeights n alpha beta kappa l *
    ((sigmaMat (μ N) (R N) s l j - μ N j) * (F N (sigmaMat (μ N) (R N) s l) i - M N i))
  refine ⟨fun N => .v (M N), M, S, V, ?_, tendsto_pi_nhds.2 tM, ?_, ?_⟩
  · filter_upwards [hC] with N hN
    obtain ⟨Y, σ, hσ, hY, h⟩ := ut_rows hu hpos (hg N) hN (hf N)
    have hRN : cholU hN = R N := by simp only [R, dif_pos hN]
    rw [hRN] at hσ
    have hm : UT.meanWeights n alpha kappa ᵥ* Y = M N := by
      ext i
      simp only [M]
      rw [hw, ← ut_mean_rem (F N) (fun _ => T) (μ N) (R N) hc, vecMul, dotProduct]
      simp only [hY, hσ, of_apply]
      rfl
    rw [hm] at h
    refine ⟨?_, .inl rfl, ?_⟩
    · rw [h]
      simp only [S, V, ← mul_assoc (UT.covWeights _ _ _ _ _)]
      rw [hY, hσ]
      rfl
    · ext i j
      simp only [S, transpose_apply, of_apply]
      exact Finset.sum_congr rfl fun l _ => by ring
  · refine tendsto_pi_nhds.2 fun i => tendsto_pi_nhds.2 fun j => ?_
    have h := ((((tendsto_pi_nhds.1 (tendsto_pi_nhds.1 tACA i) j).add (tsum _ fun a => bdd_mul_zero (hTb a i) (trem a j))).add
      (tsum _ fun a => bdd_mul_zero (hTb a j) (trem a i))).add (tsum _ fun a => by
        have := (trem a i).mul (trem a j)
        rwa [mul_zero] at this)).add (((tMF i).mul (tMF j)).const_mul (beta - alpha * alpha))
    simp only [add_zero, mul_zero] at h
    refine h.congr' ?_
    filter_upwards [hC] with N hN
    have e := ut_cov_rem (F N) (fun _ => T) beta (μ N) (R N) hc (hR N hN) i j (M N) fun i => rfl
    rw [hTA] at e
    refine Eq.trans ?_ e.symm
    congr 3
    exact Finset.sum_congr rfl fun a _ => by rw [mul_comm (T _ j)]
  · refine tendsto_pi_nhds.2 fun j => tendsto_pi_nhds.2 fun i => ?_
    have h := (tendsto_pi_nhds.1 (tendsto_pi_nhds.1 tCA j) i).add (tsum _ fun a => bdd_mul_zero (hdb a j) (trem a i))
    simp only [add_zero] at h
    refine h.congr' ?_
    filter_upwards [hC] with N hN
    have e := ut_cross_rem (F N) (fun _ => T) beta (μ N) (R N) hc (hR N hN) j i (M N i)
    rw [hTA] at e
    simp only [V, of_apply]
    rw [e]

/-- **C120** (linear systems). Filter objects for linear systems whose matrices, offsets, noise covariances and priors converge approach
the limit. -/
theorem C120_systems {K : ℕ → KFS} {u : ℕ → Option ℝ} {t₀ : ℕ → ℝ} {prior : ℕ → Gaussian} {L' : ℕ → StateSpace n k} {L : StateSpace n k}
    (h : ∀ N, Describes env (K N) (u N) (t₀ N) (prior N) (L' N)) (hg : ∀ N, (L' N).Good)
    (tA : ∀ i, Tendsto (fun N => (L' N).A i) atTop (𝓝 (L.A i))) (tb : ∀ i, Tendsto (fun N => (L' N).b i) atTop (𝓝 (L.b i)))
    (tH : ∀ i, Tendsto (fun N => (L' N).H i) atTop (𝓝 (L.H i))) (tc : ∀ i, Tendsto (fun N => (L' N).c i) atTop (𝓝 (L.c i)))
    (tQ : Tendsto (fun N => (L' N).Q) atTop (𝓝 L.Q)) (tR : Tendsto (fun N => (L' N).R) atTop (𝓝 L.R))
    (tm : Tendsto (fun N => (L' N).m0) atTop (𝓝 L.m0)) (tP : Tendsto (fun N => (L' N).P0) atTop (𝓝 L.P0)) :
    Approaches env K u t₀ prior L where
  transition i := C120_exact (fun N => (h N).transition i) (tA i) (tb i)
  measurement i := C120_exact (fun N => (h N).measurement i) (tH i) (tc i)
  noise := ⟨_, _, fun N => ⟨(h N).Q, posSemidef_symm (hg N).Q.posSemidef⟩, fun N => ⟨(h N).R, posSemidef_symm (hg N).R.posSemidef⟩, tQ, tR⟩
  prior := ⟨_, _, fun N => ⟨(h N).prior, posSemidef_symm (hg N).P0.posSemidef⟩, tm, tP⟩

/-! ## Concrete runs -/

private theorem mapSys_inLimit {F F' : ℕ → ℝ → ℝ} (hF : ∀ N x, HasDerivAt (F N) (F' N x) x) {a b : ℝ}
    (h1 : ∀ (x : ℕ → ℝ) (m : ℝ), Tendsto x atTop (𝓝 m) → Tendsto (fun N => F N (x N)) atTop (𝓝 (a * m + b)) ∧
      Tendsto (fun N => F' N (x N)) atTop (𝓝 a)) (t u : ℕ → Option ℝ) :
    ExactInLimit calmEnv (fun _ => taylorTransform calmEnv exactJac) (fun N z => IEKS.mapSys (F N) z (t N) (u N)) (m1 a) (v1 b) := by
  refine C120_taylor exactJac_correct (fun N => IEKS.mapSys_vec (F N) (t N) (u N))
    (D := fun N x => ContinuousLinearMap.pi fun _ : Fin 1 => F' N (x 0) • ContinuousLinearMap.proj (R := ℝ) (φ := fun _ : Fin 1 => ℝ) 0)
    (fun N x => ?_) fun x m hx => ?_
  · rw [hasFDerivAt_pi]
    intro i
    have h1 : HasFDerivAt (fun x : Fin 1 → ℝ => x 0) (ContinuousLinearMap.proj (R := ℝ) (φ := fun _ : Fin 1 => ℝ) 0) x :=
      (ContinuousLinearMap.proj (R := ℝ) (φ := fun _ : Fin 1 => ℝ) 0).hasFDerivAt
    exact (hF N (x 0)).comp_hasFDerivAt x h1
  · obtain ⟨t1, t2⟩ := h1 (fun N => x N 0) (m 0) (tendsto_pi_nhds.1 hx 0)
    refine ⟨tendsto_pi_nhds.2 fun i => ?_, tendsto_pi_nhds.2 fun i => tendsto_pi_nhds.2 fun j => ?_⟩
    · have e : (m1 a *ᵥ m + v1 b) i = a * m 0 + b := by simp [mulVec, dotProduct, m1, v1]
      rw [e]; exact t1
    · have e : ∀ N, jacMat (ContinuousLinearMap.pi fun _ : Fin 1 => F' N (x N 0) •
          ContinuousLinearMap.proj (R := ℝ) (φ := fun _ : Fin 1 => ℝ) 0) i j = F' N (x N 0) := fun N => by
        fin_cases i; fin_cases j
        simp [jacMat]
      simp only [e]
      exact t2

/-- The extended Kalman filter for the transition `x + sin(x) / (N + 1)` and direct measurements. -/
noncomputable def nearWalk (N : ℕ) : KFS :=
  KFS.init (taylorTransform calmEnv exactJac)
    { transition := IEKS.mapSys (fun x => x + Real.sin x / (N + 1)), measurement := IEKS.mapSys (fun x => x),
      Q := .m (m1 1), R := .m (m1 1), initState := sG 0 1, dt := 1 } none

/-- The extended Kalman filter and smoother on `x + sin(x) / (N + 1)` with direct measurements `2 + 1 / (N + 1)` and `3`: for large `N` the
results are near those of the random walk with measurements `2` and `3`. -/
example : ∃ (M : ℕ → ℕ → Fin 1 → ℝ) (V : ℕ → ℕ → Matrix (Fin 1) (Fin 1) ℝ) (m : Fin 1 → ℝ) (C : Matrix (Fin 1) (Fin 1) ℝ),
    (∀ᶠ N : ℕ in atTop, ∃ fs rs,
      (nearWalk N).kalmanFilter calmEnv [.s (2 + 1 / (N + 1)), .s 3] none 0 none = .ok fs ∧
      (nearWalk N).kalmanSmoother calmEnv fs none = .ok rs ∧
      ∃ g, rs[0]? = some g ∧ HasMoments calmEnv g (M N 0) (V N 0)) ∧
    (∀ z, (⟨v1 0, m1 1, fun _ => m1 1, fun _ => v1 0, m1 1, fun _ => m1 1, fun _ => v1 0, m1 1⟩ : StateSpace 1 1).posterior
      (fun i => if i = 0 then v1 2 else v1 3) 2 1 z = ENNReal.ofReal (normalPdf m C z)) ∧
    Tendsto (fun N => M N 0) atTop (𝓝 m) ∧ Tendsto (fun N => V N 0) atTop (𝓝 C) := by
  have h0 : Tendsto (fun N : ℕ => 1 / ((N : ℝ) + 1)) atTop (𝓝 0) := tendsto_one_div_add_atTop_nhds_zero_nat
  have h1 : (m1 1).PosDef := m1_posDef.2 one_pos
  have hs : (m1 1)ᵀ = m1 1 := posSemidef_symm h1.posSemidef
  obtain ⟨M, V, a, b⟩ := C120_smoother (env := calmEnv) (K := nearWalk) (u := fun _ => none) (prior := fun _ => none)
    (L := ⟨v1 0, m1 1, fun _ => m1 1, fun _ => v1 0, m1 1, fun _ => m1 1, fun _ => v1 0, m1 1⟩) ⟨h1, h1, h1⟩
    ⟨fun i => mapSys_inLimit (a := 1) (b := 0) (F := fun N x => x + Real.sin x / (N + 1)) (F' := fun N x => 1 + Real.cos x / (N + 1))
        (fun N x => (hasDerivAt_id x).add ((Real.hasDerivAt_sin x).div_const _)) (fun x m hx => by
          have a1 := hx.add (((Real.continuous_sin.tendsto m).comp hx).mul h0)
          have a2 := (((Real.continuous_cos.tendsto m).comp hx).mul h0).const_add 1
          simp only [mul_zero, Function.comp_apply, mul_one_div, add_zero] at a1 a2
          exact ⟨by simpa using a1, a2⟩) (fun _ => none) fun _ => none,
      fun i => mapSys_inLimit (a := 1) (b := 0) (F := fun _ x => x) (F' := fun _ _ => 1) (fun N x => hasDerivAt_id x)
        (fun x m hx => ⟨by simpa using hx, tendsto_const_nhds⟩) (fun _ => none) fun _ => none,
      ⟨fun _ => m1 1, fun _ => m1 1, fun _ => ⟨rfl, hs⟩, fun _ => ⟨rfl, hs⟩, tendsto_const_nhds, tendsto_const_nhds⟩,
      ⟨fun _ => v1 0, fun _ => m1 1, fun _ => ⟨sG_moments _ _ _, hs⟩, tendsto_const_nhds, tendsto_const_nhds⟩⟩
    (W := 2) (by norm_num) (ys := fun N : ℕ => [.s (2 + 1 / (N + 1)), .s 3]) (yv := fun N i => if i = 0 then v1 (2 + 1 / (N + 1)) else v1 3)
    (y := fun i => if i = 0 then v1 2 else v1 3) (fun _ => rfl)
    (fun N i a ha => by
      rcases i with _ | _ | i
      · obtain rfl : Arr.s (2 + 1 / (N + 1)) = a := by simpa using ha
        exact .inr (by simp)
      · obtain rfl : Arr.s 3 = a := by simpa using ha
        exact .inr (by simp)
      · simp at ha)
    (fun i hi => by
      rcases i with _ | i
      · simp only [if_true]
        exact tendsto_pi_nhds.2 fun _ => by simpa [v1] using h0.const_add 2
      · simp)
  obtain ⟨m, C, -, c1, c2, c3⟩ := b 0 (by decide)
  refine ⟨M, V, m, C, ?_, c1, c2, c3⟩
  filter_upwards [a] with N hN
  obtain ⟨fs, rs, d1, d2, -, d3⟩ := hN
  exact ⟨fs, rs, d1, d2, d3 0 (by decide)⟩

/-- The extended Kalman filter of a linear system with priors that converge. -/
example : Approaches calmEnv (fun _ => demoKFS (taylorTransform calmEnv exactJac)) (fun _ => none) (fun _ => 0)
    (fun N => Gaussian.ofMoment (.v ![1 + 1 / ((N : ℝ) + 1), 1]) (.m (diagonal ![2, 3]))) demoSpace := by
  refine C120_systems (L' := fun N => { demoSpace with m0 := ![1 + 1 / ((N : ℝ) + 1), 1] })
    (fun N => ⟨fun _ => C20_taylor_exact calmEnv exactJac_correct (.inl (affineFunc_vec _ _)),
      fun _ => C20_taylor_exact calmEnv exactJac_correct (.inl (affineFunc_vec _ _)), rfl, rfl, hasMoments_ofMoment _ _ _⟩)
    (fun N => ⟨demoSpace_good.P0, demoSpace_good.Q, demoSpace_good.R⟩) (fun _ => tendsto_const_nhds) (fun _ => tendsto_const_nhds)
    (fun _ => tendsto_const_nhds) (fun _ => tendsto_const_nhds) tendsto_const_nhds tendsto_const_nhds ?_ tendsto_const_nhds
  refine tendsto_pi_nhds.2 fun i => ?_
  fin_cases i
  · simpa [demoSpace] using (tendsto_one_div_add_atTop_nhds_zero_nat (𝕜 := ℝ)).const_add 1
  · simp [demoSpace]

/-- Monte Carlo transforms with `N` samples of `x ↦ (1 + 1 / (N + 1)) x` are, almost surely, exact for the identity in the limit. -/
example : ∃ (Ω : Type) (_ : MeasurableSpace Ω) (p : MeasureTheory.Measure Ω) (draw : Ω → Draw), MeasureTheory.IsProbabilityMeasure p ∧
    ∀ᵐ ω ∂p, ExactInLimit (n := 2) (k := 2) calmEnv (fun N => mcTransform calmEnv (draw ω) N)
      (fun N => affineFunc ((1 + 1 / ((N : ℝ) + 1)) • (1 : Matrix (Fin 2) (Fin 2) ℝ)) 0) 1 0 := by
  obtain ⟨Ω, hΩ, p, root, z, draw, hp, h1, h2, h3, h4⟩ := normalStreams_exist 2 5
  refine ⟨Ω, hΩ, p, draw, hp, ?_⟩
  filter_upwards [C119_normal_draws h1 h2 h3 h4] with ω hω
  refine C120_monte_carlo hω (by norm_num) (fun N => affineFunc_rows _ _) ?_ tendsto_const_nhds
  have h0 := ((tendsto_one_div_add_atTop_nhds_zero_nat (𝕜 := ℝ)).const_add 1).smul_const (1 : Matrix (Fin 2) (Fin 2) ℝ)
  simpa using h0

/-- The unscented transform of `x + sin(x) / (N + 1)`, applied to both coordinates, is exact for the identity in the limit. -/
example : ∃ u, UT.init 2 1 2 1 = .ok u ∧ ExactInLimit (n := 2) (k := 2) calmEnv (fun _ => u.transform calmEnv)
    (fun N => rowsFunc fun (x : Fin 2 → ℝ) i => x i + Real.sin (x i) / ((N : ℝ) + 1)) 1 0 := by
  obtain ⟨u, hu, -⟩ := (C14_unscented_weights 2 1 2 1).2 (by norm_num)
  refine ⟨u, hu, C120_unscented hu (by norm_num) (fun N => rowsFunc_onRows _) fun x _ => tendsto_pi_nhds.2 fun i => ?_⟩
  have h := bdd_mul_zero (f := fun N => Real.sin (x N i)) ⟨1, fun N => Real.abs_sin_le_one _⟩ (tendsto_one_div_add_atTop_nhds_zero_nat (𝕜 := ℝ))
  simpa [div_eq_mul_inv] using h

end Verif
