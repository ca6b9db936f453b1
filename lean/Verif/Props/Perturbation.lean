import Verif.Props.Total
import Verif.Props.FirstPass
import Verif.Lemmas.CholeskyLimits
import Verif.Lemmas.CurvatureUT

/-!
# Results on nonlinear systems depend continuously on data, prior and parameters: C121
-/

namespace Verif

open Matrix Gaussian

variable {env : Env} {n k : ℕ} {Θ : Type*} [TopologicalSpace Θ]

/-- Transforms and functions that depend on a parameter: for states whose moments depend continuously on the parameter, the results are
arrays that do so too. -/
def VariesContinuously (env : Env) (T : Θ → Transform) (f : Θ → Func) (n k : ℕ) : Prop :=
  ∀ (g : Θ → Gaussian) (μ : Θ → Fin n → ℝ) (C : Θ → Matrix (Fin n) (Fin n) ℝ), (∀ θ, HasMoments env (g θ) (μ θ) (C θ)) →
    (∀ θ, (C θ).PosDef) → Continuous μ → Continuous C →
    ∃ (x : Θ → Arr) (xv : Θ → Fin k → ℝ) (S : Θ → Matrix (Fin k) (Fin k) ℝ) (V : Θ → Matrix (Fin n) (Fin k) ℝ),
      (∀ θ, T θ (f θ) (g θ) = .ok (x θ, .m (S θ), .m (V θ)) ∧ IsVec (x θ) (xv θ)) ∧ Continuous xv ∧ Continuous S ∧ Continuous V

/-- Filter objects, controls, start times and priors that depend continuously on a parameter, with transforms that linearise (C75). -/
structure ContinuousProblem (env : Env) (K : Θ → KFS) (u : Θ → Option ℝ) (t₀ : Θ → ℝ) (prior : Θ → Gaussian) (n k : ℕ) : Prop where
  transition : ∀ i : ℕ, VariesContinuously env (fun θ => (K θ).transform)
    (fun θ x => (K θ).transition x (some (t₀ θ + i * (K θ).dt)) (u θ)) n n
  linTransition : ∀ θ (i : ℕ), LinearisesOn env (K θ).transform (fun x => (K θ).transition x (some (t₀ θ + i * (K θ).dt)) (u θ)) n n
  measurement : ∀ i : ℕ, VariesContinuously env (fun θ => (K θ).measTransform)
    (fun θ x => (K θ).measurement x (some (t₀ θ + i * (K θ).dt)) (u θ)) n k
  linMeasurement : ∀ θ (i : ℕ), LinearisesOn env (K θ).measTransform (fun x => (K θ).measurement x (some (t₀ θ + i * (K θ).dt)) (u θ)) n k
  noise : ∃ (Q : Θ → Matrix (Fin n) (Fin n) ℝ) (R : Θ → Matrix (Fin k) (Fin k) ℝ), (∀ θ, (K θ).Q = .m (Q θ) ∧ (Q θ).PosDef) ∧
    (∀ θ, (K θ).R = .m (R θ) ∧ (R θ).PosDef) ∧ Continuous Q ∧ Continuous R
  prior : ∃ (m : Θ → Fin n → ℝ) (P : Θ → Matrix (Fin n) (Fin n) ℝ), (∀ θ, HasMoments env (prior θ) (m θ) (P θ) ∧ (P θ).PosDef) ∧
    Continuous m ∧ Continuous P

private theorem of_inj {a c : Fin n → ℝ} {b d : Matrix (Fin n) (Fin n) ℝ}
    (h : (Gaussian.ofMoment (.v a) (.m b)) = Gaussian.ofMoment (.v c) (.m d)) : a = c ∧ b = d := by
  have h1 := hasMoments_ofMoment calmEnv a b
  have h2 := hasMoments_ofMoment calmEnv c d
  rw [h] at h1
  have e1 := h1.1.symm.trans h2.1
  have e2 := h1.2.symm.trans h2.2
  exact ⟨by simpa using e1, by simpa using e2⟩

private theorem lin_psd {T : Transform} {f : Func} {g : Gaussian} {μ : Fin n → ℝ} {P : Matrix (Fin n) (Fin n) ℝ} (h : LinearisesOn env T f n k)
    (hg : HasMoments env g μ P) (hP : P.PosDef) {x : Arr} {S : Matrix (Fin k) (Fin k) ℝ} {V : Matrix (Fin n) (Fin k) ℝ}
    (e : T f g = .ok (x, .m S, .m V)) {R : Matrix (Fin k) (Fin k) ℝ} (hR : R.PosDef) : (S + R).PosDef := by
  obtain ⟨z, zv, H, E, -, hE, hT⟩ := h g μ P hg hP
  rw [e] at hT
  simp only [Except.ok.injEq, Prod.mk.injEq, Arr.m.injEq, heq_eq_eq, true_and] at hT
  rw [hT.2.1, add_assoc]
  exact innov_posDef hP.posSemidef (hR.posSemidef_add hE) H

/-- One step of the filter. -/
theorem continuous_step {K : Θ → KFS} {t u : Θ → Option ℝ}
    (hv : VariesContinuously env (fun θ => (K θ).transform) (fun θ x => (K θ).transition x (t θ) (u θ)) n n)
    (hl : ∀ θ, LinearisesOn env (K θ).transform (fun x => (K θ).transition x (t θ) (u θ)) n n)
    (hv' : VariesContinuously env (fun θ => (K θ).measTransform) (fun θ x => (K θ).measurement x (t θ) (u θ)) n k)
    (hl' : ∀ θ, LinearisesOn env (K θ).measTransform (fun x => (K θ).measurement x (t θ) (u θ)) n k)
    {Q : Θ → Matrix (Fin n) (Fin n) ℝ} {R : Θ → Matrix (Fin k) (Fin k) ℝ} (hQ : ∀ θ, (K θ).Q = .m (Q θ) ∧ (Q θ).PosDef)
    (hR : ∀ θ, (K θ).R = .m (R θ) ∧ (R θ).PosDef) (tQ : Continuous Q) (tR : Continuous R)
    {g : Θ → Gaussian} {m : Θ → Fin n → ℝ} {P : Θ → Matrix (Fin n) (Fin n) ℝ}
    (hg : ∀ θ, HasMoments env (g θ) (m θ) (P θ)) (hP : ∀ θ, (P θ).PosDef) (h1 : Continuous m) (h2 : Continuous P)
    {a : Θ → Arr} {yv : Θ → Fin k → ℝ} (ha : ∀ θ, IsVec (a θ).squeeze (yv θ)) (hy : Continuous yv) :
    ∃ (p : Θ → Gaussian) (m' : Θ → Fin n → ℝ) (P' : Θ → Matrix (Fin n) (Fin n) ℝ),
      (∀ θ, (K θ).predict (g θ) (t θ) (u θ) = .ok (p θ) ∧
        (K θ).correct env (p θ) (a θ).squeeze (t θ) (u θ) = .ok (ofMoment (.v (m' θ)) (.m (P' θ)))) ∧
      (∀ θ, (P' θ).PosDef) ∧ Continuous m' ∧ Continuous P' := by
  obtain ⟨x, xv, S, V, e1, tx, tS, -⟩ := hv g m P hg hP h1 h2
  have hpp : ∀ θ, (S θ + Q θ).PosDef := fun θ => lin_psd (hl θ) (hg θ) (hP θ) (e1 θ).1 (hQ θ).2
  have hgp : ∀ θ, HasMoments env (ofMoment (.v (xv θ)) (.m (S θ + Q θ))) (xv θ) (S θ + Q θ) := fun θ => hasMoments_ofMoment ..
  obtain ⟨z, zv, Z, W, e2, tz, tZ, tW⟩ := hv' _ _ _ hgp hpp tx (tS.add tQ)
  have hdet : ∀ θ, (Z θ + R θ).det ≠ 0 := fun θ => posDef_det_ne (lin_psd (hl' θ) (hgp θ) (hpp θ) (e2 θ).1 (hR θ).2)
  have tG := ((inv_continuous (tZ.add tR) hdet).matrix_mul tW.matrix_transpose).matrix_transpose
  have hc : ∀ θ, _ := fun θ => KFS.correct_of (K := K θ) (t := t θ) (u := u θ) (hgp θ) (e2 θ).1 (e2 θ).2 (ha θ) (hR θ).1 (hdet θ)
  refine ⟨_, _, _, fun θ => ⟨KFS.predict_of (e1 θ).1 (e1 θ).2 (hQ θ).1, hc θ⟩, fun θ => ?_, tx.add (tG.matrix_mulVec (hy.sub tz)),
    (tS.add tQ).sub (tG.matrix_mul tW.matrix_transpose)⟩
  obtain ⟨r, m', C', hr, rfl, hC', -⟩ := correct_good (hl' θ) (hR θ).1 (hR θ).2 (hgp θ) (hpp θ) (ha θ)
  have := (hc θ).symm.trans hr
  rw [Except.ok.injEq] at this
  have e := (of_inj this).2
  rw [← e] at hC'
  exact hC'

/-- One step of the smoother. -/
theorem continuous_smooth {K : Θ → KFS} {t u : Θ → Option ℝ}
    (hv : VariesContinuously env (fun θ => (K θ).transform) (fun θ x => (K θ).transition x (t θ) (u θ)) n n)
    (hl : ∀ θ, LinearisesOn env (K θ).transform (fun x => (K θ).transition x (t θ) (u θ)) n n)
    {Q : Θ → Matrix (Fin n) (Fin n) ℝ} (hQ : ∀ θ, (K θ).Q = .m (Q θ) ∧ (Q θ).PosDef) (tQ : Continuous Q)
    {m s : Θ → Fin n → ℝ} {P C : Θ → Matrix (Fin n) (Fin n) ℝ} (hP : ∀ θ, (P θ).PosDef) (hC : ∀ θ, (C θ).PosDef)
    (h1 : Continuous m) (h2 : Continuous P) (s1 : Continuous s) (s2 : Continuous C) :
    ∃ (m' : Θ → Fin n → ℝ) (P' : Θ → Matrix (Fin n) (Fin n) ℝ),
      (∀ θ, (K θ).smooth env (ofMoment (.v (m θ)) (.m (P θ))) (ofMoment (.v (s θ)) (.m (C θ))) (t θ) (u θ) =
        .ok (ofMoment (.v (m' θ)) (.m (P' θ)))) ∧ (∀ θ, (P' θ).PosDef) ∧ Continuous m' ∧ Continuous P' := by
  have hg : ∀ θ, HasMoments env (ofMoment (.v (m θ)) (.m (P θ))) (m θ) (P θ) := fun θ => hasMoments_ofMoment ..
  have hn : ∀ θ, HasMoments env (ofMoment (.v (s θ)) (.m (C θ))) (s θ) (C θ) := fun θ => hasMoments_ofMoment ..
  obtain ⟨x, xv, S, X, e1, tx, tS, tX⟩ := hv _ _ _ hg hP h1 h2
  have hdet : ∀ θ, (S θ + Q θ).det ≠ 0 := fun θ => posDef_det_ne (lin_psd (hl θ) (hg θ) (hP θ) (e1 θ).1 (hQ θ).2)
  have tG := ((inv_continuous (tS.add tQ) hdet).matrix_mul tX.matrix_transpose).matrix_transpose
  have hc : ∀ θ, _ := fun θ => KFS.smooth_of (K := K θ) (t := t θ) (u := u θ) (hg θ) (hn θ) (e1 θ).1 (e1 θ).2 (hQ θ).1 (hdet θ)
  refine ⟨_, _, hc, fun θ => ?_, h1.add (tG.matrix_mulVec (s1.sub tx)),
    h2.add ((tG.matrix_mul (s2.sub (tS.add tQ))).matrix_mul tG.matrix_transpose)⟩
  obtain ⟨r, m', C', hr, rfl, hC', -⟩ := smooth_good (hl θ) (hQ θ).1 (hQ θ).2 (hg θ) (hP θ) (hn θ) (hC θ).posSemidef
  have := (hc θ).symm.trans hr
  rw [Except.ok.injEq] at this
  have e := (of_inj this).2
  rw [e]; exact hC'

private theorem loop {K : Θ → KFS} {u : Θ → Option ℝ} {t₀ : Θ → ℝ} {prior : Θ → Gaussian} (hK : ContinuousProblem env K u t₀ prior n k) :
    ∀ (W i : ℕ) (ys : Θ → List Arr) (yv : Θ → ℕ → Fin k → ℝ) (g : Θ → Gaussian) (m : Θ → Fin n → ℝ) (P : Θ → Matrix (Fin n) (Fin n) ℝ),
    (∀ θ, (ys θ).length = W) → (∀ θ j a, (ys θ)[j]? = some a → IsVec a.squeeze (yv θ j)) → (∀ j < W, Continuous fun θ => yv θ j) →
    (∀ θ, HasMoments env (g θ) (m θ) (P θ)) → (∀ θ, (P θ).PosDef) → Continuous m → Continuous P →
    ∃ (M : Θ → ℕ → Fin n → ℝ) (V : Θ → ℕ → Matrix (Fin n) (Fin n) ℝ),
      (∀ θ, (K θ).filterLoop env (u θ) (g θ) (t₀ θ + i * (K θ).dt) (ys θ) =
        .ok ((List.range W).map fun j => ofMoment (.v (M θ j)) (.m (V θ j)))) ∧
      ∀ j < W, (∀ θ, (V θ j).PosDef) ∧ Continuous (fun θ => M θ j) ∧ Continuous fun θ => V θ j
  | 0, i, ys, yv, g, m, P, hlen, _, _, _, _, _, _ => by
    refine ⟨fun _ _ => 0, fun _ _ => 0, fun θ => ?_, fun j hj => absurd hj (by omega)⟩
    rw [List.length_eq_zero_iff.1 (hlen θ)]; rfl
  | W + 1, i, ys, yv, g, m, P, hlen, hy, ty, hg, hP, h1, h2 => by
    have hc : ∀ θ, ∃ a l, ys θ = a :: l := fun θ => List.exists_cons_of_length_eq_add_one (hlen θ)
    choose a l hal using hc
    obtain ⟨Q, R, hQ, hR, tQ, tR⟩ := hK.noise
    obtain ⟨p, m', P', e, hP', t1, t2⟩ := continuous_step (hK.transition i) (fun θ => hK.linTransition θ i) (hK.measurement i)
      (fun θ => hK.linMeasurement θ i) hQ hR tQ tR hg hP h1 h2 (a := a) (yv := fun θ => yv θ 0) (fun θ => hy θ 0 (a θ) (by rw [hal]; rfl))
      (ty 0 (by omega))
    obtain ⟨M, V, e', t'⟩ := loop hK W (i + 1) l (fun θ j => yv θ (j + 1)) (fun θ => ofMoment (.v (m' θ)) (.m (P' θ))) m' P'
      (fun θ => by have := hlen θ; rw [hal] at this; simpa using this) (fun θ j b hb => hy θ (j + 1) b (by rw [hal]; simpa using hb))
      (fun j hj => ty (j + 1) (by omega)) (fun θ => hasMoments_ofMoment ..) hP' t1 t2
    refine ⟨fun θ j => j.casesOn (m' θ) (M θ), fun θ j => j.casesOn (P' θ) (V θ), fun θ => ?_, fun j hj => ?_⟩
    · have e2 : t₀ θ + (i : ℝ) * (K θ).dt + (K θ).dt = t₀ θ + ((i + 1 : ℕ) : ℝ) * (K θ).dt := by push_cast; ring
      rw [hal, KFS.filterLoop]
      have a1 : ∀ {β : Type} (F : Gaussian → Py β), ((K θ).predict (g θ) (some (t₀ θ + i * (K θ).dt)) (u θ) >>= fun s =>
          (K θ).correct env s (a θ).squeeze (some (t₀ θ + i * (K θ).dt)) (u θ) >>= F) = F (ofMoment (.v (m' θ)) (.m (P' θ))) := fun F => by
        rw [(e θ).1, ok_bind, (e θ).2, ok_bind]
      rw [a1, e2, e' θ, ok_bind, List.range_succ_eq_map, List.map_cons, List.map_map]
      rfl
    · cases j with
      | zero => exact ⟨hP', t1, t2⟩
      | succ j => exact t' j (by omega)

/-- **C121.** Let filter objects with linearising transforms, noise covariances, priors and measurements depend continuously on a parameter.
Then for every value of the parameter the filter succeeds, with positive definite covariances, and all reported means and covariances
depend continuously on the parameter. -/
theorem C121_filter {K : Θ → KFS} {u : Θ → Option ℝ} {tZero : Θ → ℝ} {prior : Θ → Option Gaussian}
    (hK : ContinuousProblem env K u tZero (fun θ => (prior θ).getD (K θ).initState) n k) {W : ℕ} {ys : Θ → List Arr}
    {yv : Θ → ℕ → Fin k → ℝ} (hlen : ∀ θ, (ys θ).length = W) (hy : ∀ θ i a, (ys θ)[i]? = some a → IsVec a.squeeze (yv θ i))
    (ty : ∀ i < W, Continuous fun θ => yv θ i) :
    ∃ (M : Θ → ℕ → Fin n → ℝ) (V : Θ → ℕ → Matrix (Fin n) (Fin n) ℝ),
      (∀ θ, ∃ fs, (K θ).kalmanFilter env (ys θ) (prior θ) (tZero θ) (u θ) = .ok fs ∧ fs.length = W ∧
        ∀ i < W, ∃ g, fs[i]? = some g ∧ HasMoments env g (M θ i) (V θ i) ∧ (V θ i).PosDef) ∧
      ∀ i < W, Continuous (fun θ => M θ i) ∧ Continuous fun θ => V θ i := by
  obtain ⟨m, P, hp, tm, tP⟩ := hK.prior
  obtain ⟨M, V, e, t⟩ := loop hK W 0 ys yv (fun θ => (prior θ).getD (K θ).initState) m P hlen hy ty (fun θ => (hp θ).1) (fun θ => (hp θ).2) tm tP
  refine ⟨M, V, fun θ => ?_, fun i hi => (t i hi).2⟩
  have e1 := e θ
  rw [Nat.cast_zero, zero_mul, add_zero] at e1
  exact ⟨_, e1, by simp, fun i hi => ⟨_, by simp [hi], hasMoments_ofMoment .., (t i hi).1 θ⟩⟩

/-! ## The smoother -/

private theorem back {K : Θ → KFS} {u : Θ → Option ℝ} {prior : Θ → Gaussian} (hK : ContinuousProblem env K u (fun _ => 0) prior n k) {W : ℕ}
    {M : Θ → ℕ → Fin n → ℝ} {V : Θ → ℕ → Matrix (Fin n) (Fin n) ℝ}
    (hq : ∀ j < W, (∀ θ, (V θ j).PosDef) ∧ Continuous (fun θ => M θ j) ∧ Continuous fun θ => V θ j) :
    ∀ (j : ℕ), j < W → ∀ (s : Θ → Fin n → ℝ) (C : Θ → Matrix (Fin n) (Fin n) ℝ), (∀ θ, (C θ).PosDef) → Continuous s → Continuous C →
    ∃ (M' : Θ → ℕ → Fin n → ℝ) (V' : Θ → ℕ → Matrix (Fin n) (Fin n) ℝ),
      (∀ θ, (K θ).smoothLoop env (u θ) (ofMoment (.v (s θ)) (.m (C θ))) (j * (K θ).dt)
        (((List.range j).map fun i => ofMoment (.v (M θ i)) (.m (V θ i))).reverse) =
        .ok (((List.range j).map fun i => ofMoment (.v (M' θ i)) (.m (V' θ i))).reverse)) ∧
      ∀ i < j, (∀ θ, (V' θ i).PosDef) ∧ Continuous (fun θ => M' θ i) ∧ Continuous fun θ => V' θ i
  | 0, _, s, C, _, _, _ => ⟨fun _ _ => 0, fun _ _ => 0, fun _ => rfl, fun i hi => absurd hi (by omega)⟩
  | j + 1, hj, s, C, hC, s1, s2 => by
    obtain ⟨Q, R, hQ, hR, tQ, tR⟩ := hK.noise
    obtain ⟨h3, h1, h2⟩ := hq j (by omega)
    obtain ⟨m', P', hc, hpd, c1, c2⟩ := continuous_smooth (hK.transition (j + 1)) (fun θ => hK.linTransition θ (j + 1)) hQ tQ h3 hC h1 h2 s1 s2
    obtain ⟨M', V', e', t'⟩ := back hK hq j (by omega) _ _ hpd c1 c2
    refine ⟨fun θ i => if i = j then m' θ else M' θ i, fun θ i => if i = j then P' θ else V' θ i,
      fun θ => ?_, fun i hi => ?_⟩
    · have b1 := hc θ
      rw [zero_add] at b1
      have e2 : ((j + 1 : ℕ) : ℝ) * (K θ).dt - (K θ).dt = j * (K θ).dt := by push_cast; ring
      rw [List.range_succ, List.map_append, List.map_append, List.reverse_append, List.reverse_append]
      simp only [List.map_cons, List.map_nil, List.reverse_cons, List.reverse_nil, List.nil_append, List.singleton_append, if_true]
      rw [KFS.smoothLoop, b1, ok_bind, copyV_moment, ok_bind, e2]
      have a2 := e' θ
      rw [a2, ok_bind, py_pure]
      congr 2
      rw [List.reverse_inj]
      refine List.map_congr_left fun i hi => ?_
      have : i ≠ j := by have := List.mem_range.1 hi; omega
      rw [if_neg this, if_neg this]
    · rcases eq_or_ne i j with rfl | hij
      · simp only [if_true]
        exact ⟨hpd, c1, c2⟩
      · simp only [if_neg hij]
        exact t' i (by omega)

/-- **C121** (smoother). The smoother, run on these results, succeeds as well, and its means and covariances depend continuously on the
parameter. -/
theorem C121_smoother {K : Θ → KFS} {u : Θ → Option ℝ} {prior : Θ → Option Gaussian}
    (hK : ContinuousProblem env K u (fun _ => 0) (fun θ => (prior θ).getD (K θ).initState) n k) {W : ℕ} (hW : 0 < W) {ys : Θ → List Arr}
    {yv : Θ → ℕ → Fin k → ℝ} (hlen : ∀ θ, (ys θ).length = W) (hy : ∀ θ i a, (ys θ)[i]? = some a → IsVec a.squeeze (yv θ i))
    (ty : ∀ i < W, Continuous fun θ => yv θ i) :
    ∃ (M : Θ → ℕ → Fin n → ℝ) (V : Θ → ℕ → Matrix (Fin n) (Fin n) ℝ),
      (∀ θ, ∃ fs rs, (K θ).kalmanFilter env (ys θ) (prior θ) 0 (u θ) = .ok fs ∧ (K θ).kalmanSmoother env fs (u θ) = .ok rs ∧ rs.length = W ∧
        ∀ i < W, ∃ g, rs[i]? = some g ∧ HasMoments env g (M θ i) (V θ i) ∧ (V θ i).PosDef) ∧
      ∀ i < W, Continuous (fun θ => M θ i) ∧ Continuous fun θ => V θ i := by
  obtain ⟨m, P, hp, tm, tP⟩ := hK.prior
  obtain ⟨M, V, e, t⟩ := loop hK W 0 ys yv (fun θ => (prior θ).getD (K θ).initState) m P hlen hy ty (fun θ => (hp θ).1) (fun θ => (hp θ).2) tm tP
  obtain ⟨w, rfl⟩ : ∃ w, W = w + 1 := ⟨W - 1, by omega⟩
  obtain ⟨t3, t1, t2⟩ := t w (by omega)
  obtain ⟨M', V', e', t'⟩ := back hK t w (by omega) _ _ t3 t1 t2
  refine ⟨fun θ i => if i = w then M θ w else M' θ i, fun θ i => if i = w then V θ w else V' θ i, fun θ => ?_, fun i hi => ?_⟩
  · have a1 := e θ
    have a2 := e' θ
    rw [Nat.cast_zero, zero_mul, add_zero] at a1
    refine ⟨_, ((List.range w).map fun i => ofMoment (.v (M' θ i)) (.m (V' θ i))) ++ [ofMoment (.v (M θ w)) (.m (V θ w))], a1, ?_, by simp,
      fun i hi => ?_⟩
    · rw [KFS.kalmanSmoother, List.length_map, List.length_range, List.range_succ, List.map_append, List.reverse_append]
      simp only [List.map_cons, List.map_nil, List.reverse_cons, List.reverse_nil, List.nil_append, List.singleton_append]
      have e : ((w + 1 : ℕ) : ℝ) - 1 = w := by push_cast; ring
      rw [copyV_moment, ok_bind, e, a2, ok_bind, py_pure]
      simp only [List.reverse_reverse]
    · rcases eq_or_ne i w with rfl | hiw
      · exact ⟨ofMoment (.v (M θ i)) (.m (V θ i)), by simp, by simpa using hasMoments_ofMoment .., by simpa using t3 θ⟩
      · have : i < w := by omega
        exact ⟨ofMoment (.v (M' θ i)) (.m (V' θ i)), by simp [List.getElem?_append, this], by simpa [hiw] using hasMoments_ofMoment ..,
          by simpa [hiw] using (t' i this).1 θ⟩
  · rcases eq_or_ne i w with rfl | hiw
    · simp only [if_true]
      exact ⟨t1, t2⟩
    · simp only [if_neg hiw]
      exact (t' i (by omega)).2

/-! ## The transforms -/

/-- The Taylor transform of a function whose value and derivative are continuous in the parameter and the point. -/
theorem C121_taylor {jac : Jac} (hjac : CorrectJac jac) {f : Θ → Func} {F : Θ → (Fin n → ℝ) → Fin k → ℝ} (hf : ∀ θ, VecFunc (f θ) (F θ))
    {F' : Θ → (Fin n → ℝ) → (Fin n → ℝ) →L[ℝ] (Fin k → ℝ)} (hF : ∀ θ x, HasFDerivAt (F θ) (F' θ x) x)
    (h0 : Continuous fun p : Θ × (Fin n → ℝ) => F p.1 p.2) (h1 : Continuous fun p : Θ × (Fin n → ℝ) => F' p.1 p.2) :
    VariesContinuously env (fun _ => taylorTransform env jac) f n k := by
  intro g μ C hg _ hμ hC
  have hJ : Continuous fun θ => jacMat (F' θ (μ θ)) := by
    have hp : Continuous fun θ => F' θ (μ θ) := h1.comp (continuous_id.prodMk hμ)
    refine continuous_pi fun i => continuous_pi fun j => ?_
    have : Continuous fun θ => F' θ (μ θ) (Pi.single j 1) i := (continuous_apply i).comp (hp.clm_apply continuous_const)
    simpa [jacMat] using this
  exact ⟨_, fun θ => F θ (μ θ), _, _, fun θ => ⟨C17_taylor_linearises hjac (hg θ) (hf θ) (hF θ (μ θ)), .inr rfl⟩,
    h0.comp (continuous_id.prodMk hμ), (hJ.matrix_mul hC).matrix_mul hJ.matrix_transpose, hC.matrix_mul hJ.matrix_transpose⟩

private theorem sigma_continuous {μ : Θ → Fin n → ℝ} {L : Θ → Matrix (Fin n) (Fin n) ℝ} (hμ : Continuous μ) (hL : Continuous L) (s : ℝ)
    (l : Fin (1 + n + n)) : Continuous fun θ => sigmaMat (μ θ) (L θ) s l := by
  have hm : ∀ j, Continuous fun θ => μ θ j := fun j => (continuous_apply j).comp hμ
  have hl : ∀ i j, Continuous fun θ => L θ i j := fun i j => hL.matrix_elem i j
  have h1 : ∀ i : Fin 1, Continuous fun θ => sigmaMat (μ θ) (L θ) s (Fin.castAdd n (Fin.castAdd n i)) := fun i => by
    rw [show (fun θ => sigmaMat (μ θ) (L θ) s (Fin.castAdd n (Fin.castAdd n i))) = μ from funext fun θ => sigmaMat_centre (μ θ) (L θ) s i]
    exact hμ
  have h2 : ∀ i : Fin n, Continuous fun θ => sigmaMat (μ θ) (L θ) s (Fin.castAdd n (Fin.natAdd 1 i)) := fun i => by
    rw [show (fun θ => sigmaMat (μ θ) (L θ) s (Fin.castAdd n (Fin.natAdd 1 i))) = fun θ j => μ θ j + s * L θ i j from
      funext fun θ => sigmaMat_plus (μ θ) (L θ) s i]
    exact continuous_pi fun j => (hm j).add (continuous_const.mul (hl i j))
  have h3 : ∀ i : Fin n, Continuous fun θ => sigmaMat (μ θ) (L θ) s (Fin.natAdd (1 + n) i) := fun i => by
    rw [show (fun θ => sigmaMat (μ θ) (L θ) s (Fin.natAdd (1 + n) i)) = fun θ j => μ θ j - s * L θ i j from
      funext fun θ => sigmaMat_minus (μ θ) (L θ) s i]
    exact continuous_pi fun j => (hm j).sub (continuous_const.mul (hl i j))
  exact Fin.addCases (motive := fun l => Continuous fun θ => sigmaMat (μ θ) (L θ) s l)
    (fun l => Fin.addCases (motive := fun l => Continuous fun θ => sigmaMat (μ θ) (L θ) s (Fin.castAdd n l)) h1 h2 l) h3 l

/-- The unscented transform of a function that is continuous in the parameter and the point; it need not be differentiable. -/
theorem C121_unscented {alpha beta kappa : ℝ} {u : UT} (hu : UT.init n alpha beta kappa = .ok u) (hpos : 0 < alpha ^ 2 * (n + kappa))
    {f : Θ → Func} {F : Θ → (Fin n → ℝ) → Fin k → ℝ} (hf : ∀ θ, OnRows (f θ) (F θ))
    (h0 : Continuous fun p : Θ × (Fin n → ℝ) => F p.1 p.2) : VariesContinuously env (fun _ => u.transform env) f n k := by
  intro g μ C hg hC hμ tC
  choose Y σ hσ hY e using fun θ => ut_rows hu hpos (hg θ) (hC θ) (hf θ)
  have tL : Continuous fun θ => cholU (hC θ) := chol_continuous (fun θ => cholU_spec (hC θ)) tC
  have tσ : ∀ l, Continuous fun θ => σ θ l := fun l => by
    simp only [hσ]
    exact sigma_continuous hμ tL _ l
  have tσ' : ∀ l i, Continuous fun θ => σ θ l i := fun l i => (continuous_apply i).comp (tσ l)
  have tμ : ∀ i, Continuous fun θ => μ θ i := fun i => (continuous_apply i).comp hμ
  have tY : ∀ l j, Continuous fun θ => Y θ l j := fun l j => by
    have h : Continuous fun θ => F θ (σ θ l) j := (continuous_apply j).comp (h0.comp (continuous_id.prodMk (tσ l)))
    simpa only [hY, of_apply] using h
  have tm : ∀ j, Continuous fun θ => (UT.meanWeights n alpha kappa ᵥ* Y θ) j := fun j => by
    simp only [vecMul, dotProduct]
    exact continuous_finsetSum _ fun l _ => continuous_const.mul (tY l j)
  refine ⟨_, _, _, _, fun θ => ⟨e θ, .inl rfl⟩, continuous_pi tm, continuous_pi fun i => continuous_pi fun j => ?_,
    continuous_pi fun i => continuous_pi fun j => ?_⟩
  · simp only [of_apply]
    exact continuous_finsetSum _ fun l _ => (continuous_const.mul ((tY l i).sub (tm i))).mul ((tY l j).sub (tm j))
  · simp only [of_apply]
    exact continuous_finsetSum _ fun l _ => (continuous_const.mul ((tσ' l i).sub (tμ i))).mul ((tY l j).sub (tm j))

/-- Over a compact set of problems (data in a closed box, parameters in closed intervals) the smoother's results stay in a bounded set,
and their covariances stay away from the singular matrices: one pair of bounds serves for all problems and all time steps. -/
theorem C121_compact [CompactSpace Θ] {K : Θ → KFS} {u : Θ → Option ℝ} {prior : Θ → Option Gaussian}
    (hK : ContinuousProblem env K u (fun _ => 0) (fun θ => (prior θ).getD (K θ).initState) n k) {W : ℕ} (hW : 0 < W) {ys : Θ → List Arr}
    {yv : Θ → ℕ → Fin k → ℝ} (hlen : ∀ θ, (ys θ).length = W) (hy : ∀ θ i a, (ys θ)[i]? = some a → IsVec a.squeeze (yv θ i))
    (ty : ∀ i < W, Continuous fun θ => yv θ i) :
    ∃ B ε : ℝ, 0 < ε ∧ ∀ θ, ∃ fs rs, (K θ).kalmanFilter env (ys θ) (prior θ) 0 (u θ) = .ok fs ∧ (K θ).kalmanSmoother env fs (u θ) = .ok rs ∧
      rs.length = W ∧ ∀ i < W, ∃ g m C, rs[i]? = some g ∧ HasMoments (n := n) env g m C ∧ (∀ a, |m a| ≤ B) ∧ (∀ a b, |C a b| ≤ B) ∧ ε ≤ C.det := by
  obtain ⟨M, V, h, t⟩ := C121_smoother hK hW hlen hy ty
  have bd : ∀ f : Θ → ℝ, Continuous f → ∃ B, ∀ θ, |f θ| ≤ B := fun f hf => by
    obtain ⟨B, hB⟩ := (isCompact_range hf.abs).bddAbove
    exact ⟨B, fun θ => hB ⟨θ, rfl⟩⟩
  have b1 : ∀ (i : Fin W) (a : Fin n), ∃ B, ∀ θ, |M θ i a| ≤ B := fun i a => bd _ ((continuous_apply a).comp (t i i.2).1)
  have b2 : ∀ (i : Fin W) (a b : Fin n), ∃ B, ∀ θ, |V θ i a b| ≤ B := fun i a b => bd _ ((t i i.2).2.matrix_elem a b)
  have b3 : ∀ i : Fin W, ∃ B, ∀ θ, |(V θ i).det⁻¹| ≤ B := fun i => bd _ ((t i i.2).2.matrix_det.inv₀ fun θ => by
    obtain ⟨_, _, _, _, _, h4⟩ := h θ
    obtain ⟨_, _, _, h6⟩ := h4 i i.2
    exact h6.det_pos.ne')
  choose B1 h1 using b1
  choose B2 h2 using b2
  choose B3 h3 using b3
  have n1 : ∀ i a, 0 ≤ max (B1 i a) 0 := fun i a => le_max_right _ _
  have n2 : ∀ i a b, 0 ≤ max (B2 i a b) 0 := fun i a b => le_max_right _ _
  have n3 : ∀ i, 0 ≤ max (B3 i) 0 := fun i => le_max_right _ _
  have s3 : 0 ≤ ∑ i, max (B3 i) 0 := Finset.sum_nonneg fun i _ => n3 i
  have s1 : 0 ≤ ∑ i, ∑ a, max (B1 i a) 0 := Finset.sum_nonneg fun i _ => Finset.sum_nonneg fun a _ => n1 i a
  have s2 : 0 ≤ ∑ i, ∑ a, ∑ b, max (B2 i a b) 0 :=
    Finset.sum_nonneg fun i _ => Finset.sum_nonneg fun a _ => Finset.sum_nonneg fun b _ => n2 i a b
  refine ⟨(∑ i, ∑ a, max (B1 i a) 0) + ∑ i, ∑ a, ∑ b, max (B2 i a b) 0, (∑ i, max (B3 i) 0 + 1)⁻¹, by positivity, fun θ => ?_⟩
  obtain ⟨fs, rs, e1, e2, e3, e4⟩ := h θ
  refine ⟨fs, rs, e1, e2, e3, fun i hi => ?_⟩
  obtain ⟨g, g1, g2, g3⟩ := e4 i hi
  refine ⟨g, _, _, g1, g2, fun a => ?_, fun a b => ?_, ?_⟩
  · have l1 := Finset.single_le_sum (fun a _ => n1 ⟨i, hi⟩ a) (Finset.mem_univ a)
    have l2 := Finset.single_le_sum (f := fun i => ∑ a, max (B1 i a) 0) (fun i _ => Finset.sum_nonneg fun a _ => n1 i a)
      (Finset.mem_univ (⟨i, hi⟩ : Fin W))
    have := h1 ⟨i, hi⟩ a θ
    have := le_max_left (B1 ⟨i, hi⟩ a) 0
    simp only at *
    linarith
  · have l1 := Finset.single_le_sum (fun b _ => n2 ⟨i, hi⟩ a b) (Finset.mem_univ b)
    have l2 := Finset.single_le_sum (f := fun a => ∑ b, max (B2 ⟨i, hi⟩ a b) 0) (fun a _ => Finset.sum_nonneg fun b _ => n2 ⟨i, hi⟩ a b)
      (Finset.mem_univ a)
    have l3 := Finset.single_le_sum (f := fun i => ∑ a, ∑ b, max (B2 i a b) 0)
      (fun i _ => Finset.sum_nonneg fun a _ => Finset.sum_nonneg fun b _ => n2 i a b) (Finset.mem_univ (⟨i, hi⟩ : Fin W))
    have := h2 ⟨i, hi⟩ a b θ
    have := le_max_left (B2 ⟨i, hi⟩ a b) 0
    simp only at *
    linarith
  · have l1 := Finset.single_le_sum (f := fun i => max (B3 i) 0) (fun i _ => n3 i) (Finset.mem_univ (⟨i, hi⟩ : Fin W))
    have d := g3.det_pos
    have l2 := h3 ⟨i, hi⟩ θ
    have l3 := le_max_left (B3 ⟨i, hi⟩) 0
    rw [abs_of_pos (inv_pos.2 d)] at l2
    exact inv_le_of_inv_le₀ d (by linarith)

/-! ## Cases -/

/-- The growth model with an unscented transform, as a problem whose parameter is the pair of measurements. -/
theorem growth_continuous {u : UT} (hu : UT.init 1 1 2 1 = .ok u) {sys : Sys} (hs : UNGM.init = .ok sys) :
    ContinuousProblem (Θ := ℝ × ℝ) calmEnv (fun _ => KFS.init (u.transform calmEnv) sys none) (fun _ => none) (fun _ => 0)
      (fun _ => sys.initState) 1 1 := by
  have hf : ∀ i : ℕ, OnRows (fun x => UNGM.f x (some (0 + i * 1)) none) fun (x : Fin 1 → ℝ) (_ : Fin 1) => growth i (x 0) := fun i N X => by
    rw [zero_add]; exact ungm_f i none N X
  have hh : ∀ i : ℕ, OnRows (fun x => UNGM.h x (some (0 + i * 1)) none) fun (x : Fin 1 → ℝ) (_ : Fin 1) => x 0 ^ 2 / 20 :=
    fun i N X => ungm_h _ none N X
  have cf : ∀ i : ℕ, Continuous fun p : (ℝ × ℝ) × (Fin 1 → ℝ) => fun _ : Fin 1 => growth i (p.2 0) := fun i => by
    refine continuous_pi fun _ => ?_
    have h : ∀ p : (ℝ × ℝ) × (Fin 1 → ℝ), 1 + p.2 0 ^ 2 ≠ 0 := fun p => by positivity
    unfold growth
    fun_prop (disch := exact h)
  have ch : Continuous fun p : (ℝ × ℝ) × (Fin 1 → ℝ) => fun _ : Fin 1 => p.2 0 ^ 2 / 20 := by fun_prop
  rw [ungm_eq hs]
  exact
    { transition := fun i => C121_unscented hu (by norm_num) (fun _ => hf i) (cf i)
      linTransition := fun _ i => unscented_linearises hu (by norm_num) (by norm_num) (hf i)
      measurement := fun i => C121_unscented hu (by norm_num) (fun _ => hh i) ch
      linMeasurement := fun _ i => unscented_linearises hu (by norm_num) (by norm_num) (hh i)
      noise := ⟨fun _ => m1 1, fun _ => m1 10, fun _ => ⟨rfl, m1_posDef.2 (by norm_num)⟩, fun _ => ⟨rfl, m1_posDef.2 (by norm_num)⟩,
        continuous_const, continuous_const⟩
      prior := ⟨fun _ => v1 0, fun _ => m1 5, fun _ => ⟨hasMoments_ofMoment .., m1_posDef.2 (by norm_num)⟩, continuous_const, continuous_const⟩ }

/-- The filtered and the smoothed moments of the growth model are continuous functions of two measurements. -/
example : ∃ (u : UT) (sys : Sys) (M : ℝ × ℝ → ℕ → Fin 1 → ℝ) (V : ℝ × ℝ → ℕ → Matrix (Fin 1) (Fin 1) ℝ),
    UT.init 1 1 2 1 = .ok u ∧ UNGM.init = .ok sys ∧
    (∀ y : ℝ × ℝ, ∃ fs rs, (KFS.init (u.transform calmEnv) sys none).kalmanFilter calmEnv [.s y.1, .v (v1 y.2)] none 0 none = .ok fs ∧
      (KFS.init (u.transform calmEnv) sys none).kalmanSmoother calmEnv fs none = .ok rs ∧ rs.length = 2 ∧
      ∀ i < 2, ∃ g, rs[i]? = some g ∧ HasMoments calmEnv g (M y i) (V y i) ∧ (V y i).PosDef) ∧
    ∀ i < 2, Continuous (fun y => M y i) ∧ Continuous fun y => V y i := by
  obtain ⟨u, hu, -⟩ := (C14_unscented_weights 1 1 2 1).2 (by norm_num)
  obtain ⟨sys, hs⟩ : ∃ sys, UNGM.init = .ok sys := ⟨_, ungm_init⟩
  obtain ⟨M, V, h1, h2⟩ := C121_smoother (growth_continuous hu hs) (prior := fun _ => none) (W := 2) (by norm_num)
    (ys := fun y => [.s y.1, .v (v1 y.2)]) (yv := fun y i => if i = 0 then v1 y.1 else v1 y.2) (fun _ => rfl)
    (fun y i a ha => by
      rcases i with _ | _ | i
      · obtain rfl : Arr.s y.1 = a := by simpa using ha
        exact .inr (by simp)
      · obtain rfl : Arr.v (v1 y.2) = a := by simpa using ha
        exact .inr (by simp)
      · simp at ha)
    (fun i _ => by
      rcases i with _ | i
      · simp only [if_true]
        exact continuous_pi fun _ => by simpa [v1] using continuous_fst
      · simp only [Nat.add_one_ne_zero, if_false]
        exact continuous_pi fun _ => by simpa [v1] using continuous_snd)
  exact ⟨u, sys, M, V, hu, hs, h1, h2⟩

/-- The Taylor transform of `x ↦ sin (a x)`, where `a` is the parameter. -/
example : VariesContinuously (Θ := ℝ) calmEnv (fun _ => taylorTransform calmEnv exactJac)
    (fun a => fun | .v (n := 1) x => .ok (.v fun _ : Fin 1 => Real.sin (a * x 0)) | _ => .error .value) 1 1 := by
  refine C121_taylor exactJac_correct (F := fun a x _ => Real.sin (a * x 0)) (fun _ _ => rfl)
    (F' := fun a x => ContinuousLinearMap.pi fun _ => (Real.cos (a * x 0) * a) • ContinuousLinearMap.proj 0)
    (fun a x => hasFDerivAt_pi.2 fun _ => ?_) (by fun_prop) ?_
  · have h := (((ContinuousLinearMap.proj (R := ℝ) (φ := fun _ : Fin 1 => ℝ) 0).hasFDerivAt (x := x)).const_mul a).sin
    simpa [smul_smul] using h
  · have h : Continuous fun p : ℝ × (Fin 1 → ℝ) => (Real.cos (p.1 * p.2 0) * p.1) •
        (ContinuousLinearMap.pi fun _ : Fin 1 => (ContinuousLinearMap.proj 0 : (Fin 1 → ℝ) →L[ℝ] ℝ)) := by fun_prop
    exact h

end Verif
