import Verif.Props.Perturbation
import Verif.Props.Even

/-!
# The iterated extended Kalman filter: results depend continuously on data, prior and parameters (C121)
-/

namespace Verif

open Matrix Gaussian

variable {env : Env} {jac : Jac} {n k : ℕ} {Θ : Type*} [TopologicalSpace Θ]

private theorem jac_continuous {F' : Θ → (Fin n → ℝ) →L[ℝ] (Fin k → ℝ)} (h : Continuous F') : Continuous fun θ => jacMat (F' θ) := by
  refine continuous_pi fun i => continuous_pi fun j => ?_
  have : Continuous fun θ => F' θ (Pi.single j 1) i := (continuous_apply i).comp (h.clm_apply continuous_const)
  simpa [jacMat] using this

/-- The Taylor transform of a function that returns rows of shape `(1, k)`. -/
theorem C121_taylor_rows (hjac : CorrectJac jac) (hn : n ≠ 1) (hk : k ≠ 1) {f : Θ → Func} {F : Θ → (Fin n → ℝ) → Fin k → ℝ}
    (hf : ∀ θ, RowFunc (f θ) (F θ)) {F' : Θ → (Fin n → ℝ) → (Fin n → ℝ) →L[ℝ] (Fin k → ℝ)} (hF : ∀ θ x, HasFDerivAt (F θ) (F' θ x) x)
    (h0 : Continuous fun p : Θ × (Fin n → ℝ) => F p.1 p.2) (h1 : Continuous fun p : Θ × (Fin n → ℝ) => F' p.1 p.2) :
    VariesContinuously env (fun _ => taylorTransform env jac) f n k := by
  intro g μ C hg _ hμ hC
  have hJ : Continuous fun θ => jacMat (F' θ (μ θ)) := jac_continuous (h1.comp (continuous_id.prodMk hμ))
  exact ⟨_, fun θ => F θ (μ θ), _, _, fun θ => ⟨C17_taylor_linearises_rows hjac hn hk (hg θ) (hf θ) (hF θ (μ θ)), .inl rfl⟩,
    h0.comp (continuous_id.prodMk hμ), (hJ.matrix_mul hC).matrix_mul hJ.matrix_transpose, hC.matrix_mul hJ.matrix_transpose⟩

/-- Problems for the iterated filter: as `ContinuousProblem`, but the measurement functions return rows and have derivatives that are
continuous in the parameter and the point. -/
structure ContinuousRowProblem (env : Env) (K : Θ → KFS) (u : Θ → Option ℝ) (t₀ : Θ → ℝ) (prior : Θ → Gaussian) (n k : ℕ) : Prop where
  transition : ∀ i : ℕ, VariesContinuously env (fun θ => (K θ).transform)
    (fun θ x => (K θ).transition x (some (t₀ θ + i * (K θ).dt)) (u θ)) n n
  linTransition : ∀ θ (i : ℕ), LinearisesOn env (K θ).transform (fun x => (K θ).transition x (some (t₀ θ + i * (K θ).dt)) (u θ)) n n
  measurement : ∀ i : ℕ, ∃ (G : Θ → (Fin n → ℝ) → Fin k → ℝ) (G' : Θ → (Fin n → ℝ) → (Fin n → ℝ) →L[ℝ] (Fin k → ℝ)),
    (∀ θ, RowFunc (fun x => (K θ).measurement x (some (t₀ θ + i * (K θ).dt)) (u θ)) (G θ)) ∧ (∀ θ x, HasFDerivAt (G θ) (G' θ x) x) ∧
    Continuous (fun p : Θ × (Fin n → ℝ) => G p.1 p.2) ∧ Continuous fun p : Θ × (Fin n → ℝ) => G' p.1 p.2
  noise : ∃ (Q : Θ → Matrix (Fin n) (Fin n) ℝ) (R : Θ → Matrix (Fin k) (Fin k) ℝ), (∀ θ, (K θ).Q = .m (Q θ) ∧ (Q θ).PosDef) ∧
    (∀ θ, (K θ).R = .m (R θ) ∧ (R θ).PosDef) ∧ Continuous Q ∧ Continuous R
  prior : ∃ (m : Θ → Fin n → ℝ) (P : Θ → Matrix (Fin n) (Fin n) ℝ), (∀ θ, HasMoments env (prior θ) (m θ) (P θ) ∧ (P θ).PosDef) ∧
    Continuous m ∧ Continuous P

private theorem lin_psd' {T : Transform} {f : Func} {g : Gaussian} {μ : Fin n → ℝ} {P : Matrix (Fin n) (Fin n) ℝ} (h : LinearisesOn env T f n k)
    (hg : HasMoments env g μ P) (hP : P.PosDef) {x : Arr} {S : Matrix (Fin k) (Fin k) ℝ} {V : Matrix (Fin n) (Fin k) ℝ}
    (e : T f g = .ok (x, .m S, .m V)) {R : Matrix (Fin k) (Fin k) ℝ} (hR : R.PosDef) : (S + R).PosDef := by
  obtain ⟨z, zv, H, E, -, hE, hT⟩ := h g μ P hg hP
  rw [e] at hT
  simp only [Except.ok.injEq, Prod.mk.injEq, Arr.m.injEq, heq_eq_eq, true_and] at hT
  rw [hT.2.1, add_assoc]
  exact innov_posDef hP.posSemidef (hR.posSemidef_add hE) H

private theorem iter (hjac : CorrectJac jac) {K : Θ → KFS} {u t : Θ → Option ℝ} {G : Θ → (Fin n → ℝ) → Fin k → ℝ}
    {G' : Θ → (Fin n → ℝ) → (Fin n → ℝ) →L[ℝ] (Fin k → ℝ)} (hG : ∀ θ, RowFunc (fun x => (K θ).measurement x (t θ) (u θ)) (G θ))
    (hG' : ∀ θ x, HasFDerivAt (G θ) (G' θ x) x) (c0 : Continuous fun p : Θ × (Fin n → ℝ) => G p.1 p.2)
    (c1 : Continuous fun p : Θ × (Fin n → ℝ) => G' p.1 p.2) {R : Θ → Matrix (Fin k) (Fin k) ℝ}
    (hR : ∀ θ, (K θ).R = .m (R θ) ∧ (R θ).PosDef) (cR : Continuous R) {x : Θ → Fin n → ℝ} {P : Θ → Matrix (Fin n) (Fin n) ℝ}
    (hP : ∀ θ, (P θ).PosDef) (cx : Continuous x) (cP : Continuous P) {y : Θ → Arr} {yv : Θ → Fin k → ℝ} (hy : ∀ θ, IsVec (y θ) (yv θ))
    (cy : Continuous yv) : ∀ (N : ℕ) (g : Θ → Gaussian) (m : Θ → Fin n → ℝ) (C : Θ → Matrix (Fin n) (Fin n) ℝ),
      (∀ θ, HasMoments env (g θ) (m θ) (C θ)) → (∀ θ, (C θ).PosDef) → Continuous m → Continuous C →
      ∃ (r : Θ → Gaussian) (m' : Θ → Fin n → ℝ) (C' : Θ → Matrix (Fin n) (Fin n) ℝ),
        (∀ θ, KFS.iterate ((K θ).iekfStep env jac (.v (x θ)) (.m (P θ)) (y θ) (t θ) (u θ)) N (g θ) = .ok (r θ) ∧
          HasMoments env (r θ) (m' θ) (C' θ) ∧ (C' θ).PosDef) ∧ Continuous m' ∧ Continuous C'
  | 0, g, m, C, hg, hC, cm, cC => ⟨g, m, C, fun θ => ⟨rfl, hg θ, hC θ⟩, cm, cC⟩
  | N + 1, g, m, C, hg, hC, cm, cC => by
    have hs : ∀ θ, _ := fun θ => iekfStep_row (K := K θ) hjac (x := x θ) (hG θ) (hG' θ (m θ)) (hR θ).1 (hP θ).posSemidef (hR θ).2 (hg θ) (hy θ)
    have cJ : Continuous fun θ => jacMat (G' θ (m θ)) := jac_continuous (c1.comp (continuous_id.prodMk cm))
    have cG : Continuous fun θ => G θ (m θ) := c0.comp (continuous_id.prodMk cm)
    have cS : Continuous fun θ => jacMat (G' θ (m θ)) * P θ * (jacMat (G' θ (m θ)))ᵀ + R θ :=
      ((cJ.matrix_mul cP).matrix_mul cJ.matrix_transpose).add cR
    have cK : Continuous fun θ => gainMat (P θ) (jacMat (G' θ (m θ))) (R θ) :=
      (cP.matrix_mul cJ.matrix_transpose).matrix_mul (inv_continuous cS fun θ => posDef_det_ne (innov_posDef (hP θ).posSemidef (hR θ).2 _))
    have d1 : Continuous fun θ => x θ + gainMat (P θ) (jacMat (G' θ (m θ))) (R θ) *ᵥ
        (yv θ - (G θ (m θ) - jacMat (G' θ (m θ)) *ᵥ (x θ - m θ))) :=
      cx.add (cK.matrix_mulVec (cy.sub (cG.sub (cJ.matrix_mulVec (cx.sub cm)))))
    have d2 : Continuous fun θ => condCov (P θ) (jacMat (G' θ (m θ))) (R θ) :=
      cP.sub (cK.matrix_mul (cP.matrix_mul cJ.matrix_transpose).matrix_transpose)
    obtain ⟨r, m', C', h1, h2, h3⟩ := iter hjac hG hG' c0 c1 hR cR hP cx cP hy cy N _ _ _ (fun θ => hasMoments_ofMoment env _ _)
      (fun θ => condCov_posDef (hP θ) (hR θ).2 _) d1 d2
    exact ⟨r, m', C', fun θ => ⟨by rw [KFS.iterate, hs θ, ok_bind]; exact (h1 θ).1, (h1 θ).2⟩, h2, h3⟩

private theorem iekf_loop (hjac : CorrectJac jac) {K : Θ → KFS} {u : Θ → Option ℝ} {t₀ : Θ → ℝ} {prior : Θ → Gaussian}
    (hK : ContinuousRowProblem env K u t₀ prior n k) (numIter : ℕ) :
    ∀ (W i : ℕ) (ys : Θ → List Arr) (yv : Θ → ℕ → Fin k → ℝ) (g : Θ → Gaussian) (m : Θ → Fin n → ℝ) (P : Θ → Matrix (Fin n) (Fin n) ℝ),
    (∀ θ, (ys θ).length = W) → (∀ θ j a, (ys θ)[j]? = some a → IsVec a.squeeze (yv θ j)) → (∀ j < W, Continuous fun θ => yv θ j) →
    (∀ θ, HasMoments env (g θ) (m θ) (P θ)) → (∀ θ, (P θ).PosDef) → Continuous m → Continuous P →
    ∃ (rs : Θ → List Gaussian) (M : Θ → ℕ → Fin n → ℝ) (V : Θ → ℕ → Matrix (Fin n) (Fin n) ℝ),
      (∀ θ, (K θ).iekfLoop env jac numIter (u θ) (g θ) (t₀ θ + i * (K θ).dt) (ys θ) = .ok (rs θ) ∧ (rs θ).length = W) ∧
      ∀ j < W, (∀ θ, ∃ r, (rs θ)[j]? = some r ∧ HasMoments env r (M θ j) (V θ j) ∧ (V θ j).PosDef) ∧
        Continuous (fun θ => M θ j) ∧ Continuous fun θ => V θ j
  | 0, i, ys, yv, g, m, P, hlen, _, _, _, _, _, _ => by
    refine ⟨fun _ => [], fun _ _ => 0, fun _ _ => 0, fun θ => ?_, fun j hj => absurd hj (by omega)⟩
    rw [List.length_eq_zero_iff.1 (hlen θ)]; exact ⟨rfl, rfl⟩
  | W + 1, i, ys, yv, g, m, P, hlen, hy, ty, hg, hP, h1, h2 => by
    have hc : ∀ θ, ∃ a l, ys θ = a :: l := fun θ => List.exists_cons_of_length_eq_add_one (hlen θ)
    choose a l hal using hc
    obtain ⟨Q, R, hQ, hR, tQ, tR⟩ := hK.noise
    obtain ⟨x, xv, S, V₀, e1, tx, tS, -⟩ := hK.transition i g m P hg hP h1 h2
    obtain ⟨G, G', hG, hG', cG, cG'⟩ := hK.measurement i
    have hpp : ∀ θ, (S θ + Q θ).PosDef := fun θ => lin_psd' (hK.linTransition θ i) (hg θ) (hP θ) (e1 θ).1 (hQ θ).2
    have hgp : ∀ θ, HasMoments env (ofMoment (.v (xv θ)) (.m (S θ + Q θ))) (xv θ) (S θ + Q θ) := fun θ => hasMoments_ofMoment ..
    obtain ⟨r, m', P', e, t1, t2⟩ := iter (env := env) hjac hG hG' cG cG' hR tR hpp tx (tS.add tQ) (y := fun θ => (a θ).squeeze)
      (yv := fun θ => yv θ 0) (fun θ => hy θ 0 (a θ) (by rw [hal]; rfl)) (ty 0 (by omega)) numIter _ _ _ hgp hpp tx (tS.add tQ)
    obtain ⟨rs, M, V, e', t'⟩ := iekf_loop hjac hK numIter W (i + 1) l (fun θ j => yv θ (j + 1)) r m' P'
      (fun θ => by have := hlen θ; rw [hal] at this; simpa using this) (fun θ j b hb => hy θ (j + 1) b (by rw [hal]; simpa using hb))
      (fun j hj => ty (j + 1) (by omega)) (fun θ => (e θ).2.1) (fun θ => (e θ).2.2) t1 t2
    refine ⟨fun θ => r θ :: rs θ, fun θ j => j.casesOn (m' θ) (M θ), fun θ j => j.casesOn (P' θ) (V θ), fun θ => ⟨?_, by simp [(e' θ).2]⟩, ?_⟩
    · have et : t₀ θ + ((i + 1 : ℕ) : ℝ) * (K θ).dt = t₀ θ + i * (K θ).dt + (K θ).dt := by push_cast; ring
      have e2 := (e' θ).1
      rw [et] at e2
      rw [hal, KFS.iekfLoop, KFS.predict_of (e1 θ).1 (e1 θ).2 (hQ θ).1, ok_bind, KFS.iteratedUpdate, (hgp θ).meanA, (hgp θ).covA, ok_bind,
        ok_bind, (e θ).1, ok_bind, e2]
      rfl
    · rintro (_ | j) hj
      · exact ⟨fun θ => ⟨r θ, rfl, (e θ).2⟩, t1, t2⟩
      · exact ⟨fun θ => by simpa using (t' j (by omega)).1 θ, (t' j (by omega)).2⟩

/-- **C121.** The states that the iterated extended Kalman filter reports depend continuously on the parameter, for every number of
iterations. -/
theorem C121_iekf (hjac : CorrectJac jac) {K : Θ → KFS} {u : Θ → Option ℝ} {tZero : Θ → ℝ} {prior : Θ → Option Gaussian}
    (hK : ContinuousRowProblem env K u tZero (fun θ => (prior θ).getD (K θ).initState) n k) (numIter : ℕ) {W : ℕ} {ys : Θ → List Arr}
    {yv : Θ → ℕ → Fin k → ℝ} (hlen : ∀ θ, (ys θ).length = W) (hy : ∀ θ i a, (ys θ)[i]? = some a → IsVec a.squeeze (yv θ i))
    (ty : ∀ i < W, Continuous fun θ => yv θ i) :
    ∃ (M : Θ → ℕ → Fin n → ℝ) (V : Θ → ℕ → Matrix (Fin n) (Fin n) ℝ),
      (∀ θ, ∃ rs, (K θ).iekf env jac (ys θ) numIter (prior θ) (tZero θ) (u θ) = .ok rs ∧ rs.length = W ∧
        ∀ i < W, ∃ g, rs[i]? = some g ∧ HasMoments env g (M θ i) (V θ i) ∧ (V θ i).PosDef) ∧
      ∀ i < W, Continuous (fun θ => M θ i) ∧ Continuous fun θ => V θ i := by
  obtain ⟨m, P, hp, tm, tP⟩ := hK.prior
  obtain ⟨rs, M, V, e, t⟩ := iekf_loop hjac hK numIter W 0 ys yv (fun θ => (prior θ).getD (K θ).initState) m P hlen hy ty
    (fun θ => (hp θ).1) (fun θ => (hp θ).2) tm tP
  refine ⟨M, V, fun θ => ⟨rs θ, ?_, (e θ).2, fun i hi => (t i hi).1 θ⟩, fun i hi => (t i hi).2⟩
  have e1 := (e θ).1
  rwa [Nat.cast_zero, zero_mul, add_zero] at e1

/-- A linear transition with squared measurements of both components. -/
noncomputable def squaresKFS : KFS where
  transform := taylorTransform calmEnv exactJac
  measTransform := taylorTransform calmEnv exactJac
  transition := affineSys !![1, 2; 0, 1] ![5, 6]
  measurement := L96.h
  Q := .m (1 : Matrix (Fin 2) (Fin 2) ℝ)
  R := .m (1 : Matrix (Fin 2) (Fin 2) ℝ)
  initState := ofMoment (.v (0 : Fin 2 → ℝ)) (.m (1 : Matrix (Fin 2) (Fin 2) ℝ))
  dt := 1

/-- Ten iterations per step: the results are continuous functions of two vectors of measurements. -/
example : ∃ (M : (Fin 2 → ℝ) × (Fin 2 → ℝ) → ℕ → Fin 2 → ℝ) (V : (Fin 2 → ℝ) × (Fin 2 → ℝ) → ℕ → Matrix (Fin 2) (Fin 2) ℝ),
    (∀ y, ∃ rs, squaresKFS.iekf calmEnv exactJac [.v y.1, .v y.2] 10 none 0 none = .ok rs ∧ rs.length = 2 ∧
      ∀ i < 2, ∃ g, rs[i]? = some g ∧ HasMoments calmEnv g (M y i) (V y i) ∧ (V y i).PosDef) ∧
    ∀ i < 2, Continuous (fun y => M y i) ∧ Continuous fun y => V y i := by
  have hA : ∀ x : Fin 2 → ℝ, HasFDerivAt (fun x : Fin 2 → ℝ => !![1, 2; 0, 1] *ᵥ x + ![5, 6])
      (LinearMap.toContinuousLinearMap (toLin' !![1, 2; 0, 1]) : (Fin 2 → ℝ) →L[ℝ] (Fin 2 → ℝ)) x := fun x =>
    ((LinearMap.toContinuousLinearMap (toLin' !![1, 2; 0, 1]) : (Fin 2 → ℝ) →L[ℝ] (Fin 2 → ℝ)).hasFDerivAt).add_const _
  have hK : ContinuousRowProblem (Θ := (Fin 2 → ℝ) × (Fin 2 → ℝ)) (n := 2) (k := 2) calmEnv (fun _ => squaresKFS) (fun _ => none) (fun _ => 0)
      (fun _ => squaresKFS.initState) :=
    { transition := fun i => C121_taylor exactJac_correct (fun _ => affineFunc_vec _ _) (fun _ x => hA x) (by fun_prop) (by fun_prop)
      linTransition := fun _ i => taylor_linearises exactJac_correct (affineFunc_vec _ _) fun x => (hA x).differentiableAt
      measurement := fun i => ⟨fun _ x j => x j ^ 2, fun _ x => ContinuousLinearMap.pi fun j => (2 * x j) • ContinuousLinearMap.proj j,
        fun _ => L96.h_row (some (0 + i * 1)) none, fun _ x => hasFDerivAt_pi.2 fun j => by
          simpa using (ContinuousLinearMap.proj (R := ℝ) (φ := fun _ : Fin 2 => ℝ) j).hasFDerivAt (x := x) |>.pow 2, by fun_prop,
        continuous_clm_apply.2 fun v => continuous_pi fun j => by
          simp only [ContinuousLinearMap.pi_apply, _root_.smul_apply, ContinuousLinearMap.proj_apply, smul_eq_mul]
          fun_prop⟩
      noise := ⟨fun _ => 1, fun _ => 1, fun _ => ⟨rfl, PosDef.one⟩, fun _ => ⟨rfl, PosDef.one⟩, continuous_const, continuous_const⟩
      prior := ⟨fun _ => 0, fun _ => 1, fun _ => ⟨hasMoments_ofMoment .., PosDef.one⟩, continuous_const, continuous_const⟩ }
  exact C121_iekf exactJac_correct (prior := fun _ => none) hK 10 (W := 2) (ys := fun y => [.v y.1, .v y.2])
    (yv := fun y i => if i = 0 then y.1 else y.2) (fun _ => rfl)
    (fun y i a ha => by
      rcases i with _ | _ | i
      · obtain rfl : Arr.v y.1 = a := by simpa using ha
        exact IsPoint.isVec (.inl rfl)
      · obtain rfl : Arr.v y.2 = a := by simpa using ha
        exact IsPoint.isVec (.inl rfl)
      · simp at ha)
    fun i _ => by
      rcases i with _ | i
      · simpa using continuous_fst
      · simpa using continuous_snd

/-- The Taylor transform of the squares of three components. -/
example : VariesContinuously (Θ := ℝ) calmEnv (fun _ => taylorTransform calmEnv exactJac) (fun _ x => L96.h x none none) 3 3 :=
  C121_taylor_rows exactJac_correct (by norm_num) (by norm_num) (fun _ => L96.h_row none none)
    (F' := fun _ x => ContinuousLinearMap.pi fun j => (2 * x j) • ContinuousLinearMap.proj j)
    (fun _ x => hasFDerivAt_pi.2 fun j => by
      simpa using (ContinuousLinearMap.proj (R := ℝ) (φ := fun _ : Fin 3 => ℝ) j).hasFDerivAt (x := x) |>.pow 2) (by fun_prop)
    (continuous_clm_apply.2 fun v => continuous_pi fun j => by
      simp only [ContinuousLinearMap.pi_apply, _root_.smul_apply, ContinuousLinearMap.proj_apply, smul_eq_mul]
      fun_prop)

end Verif
