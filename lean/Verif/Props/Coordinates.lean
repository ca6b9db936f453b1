import Verif.Spec.Coordinates
import Verif.Props.Total

/-!
# Results do not depend on coordinates and units (C90)
-/

namespace Verif

open Matrix Gaussian

variable {env : Env} {jac : Jac} {n k : ℕ}

namespace Chart

theorem isUnit (c : Chart n) : IsUnit c.A.det := isUnit_iff_ne_zero.2 c.det_ne

theorem back_pt (c : Chart n) (x : Fin n → ℝ) : c.back (c.pt x) = x := by
  rw [back, pt, mulVec_add, mulVec_mulVec, nonsing_inv_mul _ c.isUnit, one_mulVec]; abel

theorem pt_back (c : Chart n) (x : Fin n → ℝ) : c.pt (c.back x) = x := by
  rw [back, pt, mulVec_add, mulVec_neg, mulVec_mulVec, mulVec_mulVec, mul_nonsing_inv _ c.isUnit, one_mulVec, one_mulVec]; abel

theorem pt_sub (c : Chart n) (x y : Fin n → ℝ) : c.pt x - c.pt y = c.A *ᵥ (x - y) := by
  rw [pt, pt, mulVec_sub]; abel

theorem pt_add (c : Chart n) (x y : Fin n → ℝ) : c.pt (x + y) = c.pt x + c.A *ᵥ y := by
  rw [pt, pt, mulVec_add]; abel

theorem cov_add (c : Chart n) (P S : Matrix (Fin n) (Fin n) ℝ) : c.cov (P + S) = c.cov P + c.cov S := by
  rw [cov, Matrix.mul_add, Matrix.add_mul]; rfl

theorem cov_sub (c : Chart n) (P S : Matrix (Fin n) (Fin n) ℝ) : c.cov (P - S) = c.cov P - c.cov S := by
  rw [cov, Matrix.mul_sub, Matrix.sub_mul]; rfl

theorem cov_posSemidef (c : Chart n) {P : Matrix (Fin n) (Fin n) ℝ} (h : P.PosSemidef) : (c.cov P).PosSemidef := congr_posSemidef h c.A

theorem cov_det (c : Chart n) (P : Matrix (Fin n) (Fin n) ℝ) : (c.cov P).det = c.A.det ^ 2 * P.det := by
  rw [cov, det_mul, det_mul, det_transpose]; ring

theorem cov_posDef (c : Chart n) {P : Matrix (Fin n) (Fin n) ℝ} (h : P.PosDef) : (c.cov P).PosDef := by
  have hi : Function.Injective (c.Aᵀ).mulVec := by
    rw [mulVec_injective_iff_isUnit, isUnit_iff_isUnit_det, det_transpose]
    exact c.isUnit
  have := h.conjTranspose_mul_mul_same (B := c.Aᵀ) hi
  rwa [conjTranspose_eq_transpose_of_trivial, transpose_transpose] at this

end Chart

theorem ofMoment_inj {m m' : Fin n → ℝ} {C C' : Matrix (Fin n) (Fin n) ℝ} (h : ofMoment (.v m) (.m C) = ofMoment (.v m') (.m C')) :
    m = m' ∧ C = C' := by
  have h1 := hasMoments_ofMoment calmEnv m C
  rw [h] at h1
  exact hasMoments_inj h1 (hasMoments_ofMoment calmEnv m' C')

/-- The gain in the new coordinates. -/
theorem gain_chart (c : Chart n) (d : Chart k) (S : Matrix (Fin k) (Fin k) ℝ) (C : Matrix (Fin n) (Fin k) ℝ) :
    ((d.cov S)⁻¹ * (c.A * C * d.Aᵀ)ᵀ)ᵀ = c.A * (S⁻¹ * Cᵀ)ᵀ * d.A⁻¹ := by
  rw [Chart.cov, Matrix.mul_inv_rev, Matrix.mul_inv_rev]
  simp only [transpose_mul, transpose_transpose, transpose_nonsing_inv, Matrix.mul_assoc]
  congr 2
  rw [← Matrix.mul_assoc d.Aᵀ, mul_nonsing_inv _ (by rw [det_transpose]; exact d.isUnit), Matrix.one_mul]

/-- The transform of `f'` at a state in the new coordinates is the transform of `f` in the new coordinates. -/
def Carries (env : Env) (T : Transform) (c : Chart n) (d : Chart k) (f f' : Func) : Prop :=
  ∀ (g g' : Gaussian) (μ : Fin n → ℝ) (P : Matrix (Fin n) (Fin n) ℝ), HasMoments env g μ P → P.PosDef →
    HasMoments env g' (c.pt μ) (c.cov P) → ∀ (z : Arr) (zv : Fin k → ℝ) (S : Matrix (Fin k) (Fin k) ℝ) (C : Matrix (Fin n) (Fin k) ℝ),
      IsVec z zv → T f g = .ok (z, .m S, .m C) →
      ∃ z', IsVec z' (d.pt zv) ∧ T f' g' = .ok (z', .m (d.cov S), .m (c.A * C * d.Aᵀ))

section steps

variable {K K' : KFS} {t u : Option ℝ} {Q : Matrix (Fin n) (Fin n) ℝ} {R : Matrix (Fin k) (Fin k) ℝ} {c : Chart n} {d : Chart k}

theorem SameState.moments {g g' : Gaussian} (h : SameState c g g') (env : Env) : ∃ (m : Fin n → ℝ) (C : Matrix (Fin n) (Fin n) ℝ),
    C.PosDef ∧ HasMoments env g m C ∧ HasMoments env g' (c.pt m) (c.cov C) := by
  obtain ⟨m, C, hC, rfl, rfl⟩ := h
  exact ⟨m, C, hC, hasMoments_ofMoment .., hasMoments_ofMoment ..⟩

theorem SameState.good {g g' : Gaussian} (h : SameState c g g') : GoodState n g ∧ GoodState n g' := by
  obtain ⟨m, C, hC, rfl, rfl⟩ := h
  exact ⟨⟨_, _, rfl, hC⟩, ⟨_, _, rfl, c.cov_posDef hC⟩⟩

theorem predict_same (hf : LinearisesOn env K.transform (fun x => K.transition x t u) n n) (hTT : K'.transform = K.transform)
    (hc : Carries env K.transform c c (fun x => K.transition x t u) (fun x => K'.transition x t u)) (hQ : K.Q = .m Q) (hQ' : Q.PosDef)
    (hQ2 : K'.Q = .m (c.cov Q)) {g g' : Gaussian} {μ : Fin n → ℝ} {P : Matrix (Fin n) (Fin n) ℝ} (hg : HasMoments env g μ P)
    (hP : P.PosDef) (hg' : HasMoments env g' (c.pt μ) (c.cov P)) :
    ∃ r r', K.predict g t u = .ok r ∧ K'.predict g' t u = .ok r' ∧ SameState c r r' := by
  obtain ⟨z, zv, H, E, hz, hE, hT⟩ := hf g μ P hg hP
  obtain ⟨z', hz', hT'⟩ := hc g g' μ P hg hP hg' z zv _ _ hz hT
  have hpd : (H * P * Hᵀ + E + Q).PosDef := by
    rw [add_assoc]; exact innov_posDef hP.posSemidef (hQ'.posSemidef_add hE) H
  rw [← hTT] at hT'
  exact ⟨_, _, KFS.predict_of hT hz hQ, KFS.predict_of hT' hz' hQ2, zv, _, hpd, rfl, by rw [c.cov_add _ Q]⟩

theorem correct_same (hh : LinearisesOn env K.measTransform (fun x => K.measurement x t u) n k) (hTT : K'.measTransform = K.measTransform)
    (hc : Carries env K.measTransform c d (fun x => K.measurement x t u) (fun x => K'.measurement x t u)) (hR : K.R = .m R) (hR' : R.PosDef)
    (hR2 : K'.R = .m (d.cov R)) {g g' : Gaussian} {μ : Fin n → ℝ} {P : Matrix (Fin n) (Fin n) ℝ} (hg : HasMoments env g μ P)
    (hP : P.PosDef) (hg' : HasMoments env g' (c.pt μ) (c.cov P)) {y y' : Arr} {yv : Fin k → ℝ} (hy : IsVec y yv) (hy' : IsVec y' (d.pt yv)) :
    ∃ r r', K.correct env g y t u = .ok r ∧ K'.correct env g' y' t u = .ok r' ∧ SameState c r r' := by
  obtain ⟨r, m', C', hr, hr', hC', -⟩ := correct_good hh hR hR' hg hP hy
  obtain ⟨z, zv, H, E, hz, hE, hT⟩ := hh g μ P hg hP
  obtain ⟨z', hz', hT'⟩ := hc g g' μ P hg hP hg' z zv _ _ hz hT
  have hpd : (H * P * Hᵀ + E + R).PosDef := by
    rw [add_assoc]; exact innov_posDef hP.posSemidef (hR'.posSemidef_add hE) H
  generalize H * P * Hᵀ + E = S0 at hT hT' hpd
  generalize P * Hᵀ = C0 at hT hT'
  have h1 := KFS.correct_of hg hT hz hy hR (posDef_det_ne hpd)
  rw [← hTT] at hT'
  have h2 := KFS.correct_of hg' hT' hz' hy' hR2 (by rw [← d.cov_add]; exact posDef_det_ne (d.cov_posDef hpd))
  refine ⟨r, _, hr, h2, m', C', hC', hr', ?_⟩
  rw [hr, hr', Except.ok.injEq] at h1
  obtain ⟨e1, e2⟩ := ofMoment_inj h1
  rw [e1, e2, ← d.cov_add, gain_chart, d.pt_sub, mulVec_mulVec, Matrix.mul_assoc _ d.A⁻¹, nonsing_inv_mul _ d.isUnit, Matrix.mul_one,
    ← mulVec_mulVec, c.pt_add, c.cov_sub]
  congr 3
  simp only [transpose_mul, transpose_transpose, Chart.cov, Matrix.mul_assoc, nonsing_inv_mul_cancel_left _ _ d.isUnit]

theorem smooth_same (hf : LinearisesOn env K.transform (fun x => K.transition x t u) n n) (hTT : K'.transform = K.transform)
    (hc : Carries env K.transform c c (fun x => K.transition x t u) (fun x => K'.transition x t u)) (hQ : K.Q = .m Q) (hQ' : Q.PosDef)
    (hQ2 : K'.Q = .m (c.cov Q)) {g g' nx nx' : Gaussian} (hg : SameState c g g') (hnx : SameState c nx nx') :
    ∃ r r', K.smooth env g nx t u = .ok r ∧ K'.smooth env g' nx' t u = .ok r' ∧ SameState c r r' := by
  obtain ⟨μ, P, hP, hg, hg'⟩ := hg.moments env
  obtain ⟨ν, S, hS, hn, hn'⟩ := hnx.moments env
  obtain ⟨r, m', C', hr, hr', hC', -⟩ := smooth_good hf hQ hQ' hg hP hn hS.posSemidef
  obtain ⟨z, zv, H, E, hz, hE, hT⟩ := hf g μ P hg hP
  obtain ⟨z', hz', hT'⟩ := hc g g' μ P hg hP hg' z zv _ _ hz hT
  have hpd : (H * P * Hᵀ + E + Q).PosDef := by
    rw [add_assoc]; exact innov_posDef hP.posSemidef (hQ'.posSemidef_add hE) H
  generalize H * P * Hᵀ + E = S0 at hT hT' hpd
  generalize P * Hᵀ = C0 at hT hT'
  have h1 := KFS.smooth_of hg hn hT hz hQ (posDef_det_ne hpd)
  rw [← hTT] at hT'
  have h2 := KFS.smooth_of hg' hn' hT' hz' hQ2 (by rw [← c.cov_add]; exact posDef_det_ne (c.cov_posDef hpd))
  refine ⟨r, _, hr, h2, m', C', hC', hr', ?_⟩
  rw [hr, hr', Except.ok.injEq] at h1
  obtain ⟨e1, e2⟩ := ofMoment_inj h1
  rw [e1, e2, ← c.cov_add, gain_chart, c.pt_sub, mulVec_mulVec, Matrix.mul_assoc _ c.A⁻¹, nonsing_inv_mul _ c.isUnit, Matrix.mul_one,
    ← mulVec_mulVec, c.pt_add, c.cov_add P, ← c.cov_sub]
  congr 3
  have ht : IsUnit c.Aᵀ.det := by rw [det_transpose]; exact c.isUnit
  simp only [transpose_mul, transpose_transpose, Chart.cov, Matrix.mul_assoc, nonsing_inv_mul_cancel_left _ _ c.isUnit, transpose_nonsing_inv,
    mul_nonsing_inv_cancel_left _ _ ht]

end steps

/-! ## The Kalman filter and smoother -/

section loops

variable {K K' : KFS} {u : Option ℝ} {Q : Matrix (Fin n) (Fin n) ℝ} {R : Matrix (Fin k) (Fin k) ℝ} {c : Chart n} {d : Chart k}

/-- **C90.** Whatever the transforms are, as long as they replace functions by linear ones plus noise and do so consistently in both
coordinate systems: `kalman_filter` on the restated system returns the restated results. -/
theorem C90_filter (hQ : K.Q = .m Q) (hQ' : Q.PosDef) (hQ2 : K'.Q = .m (c.cov Q)) (hR : K.R = .m R) (hR' : R.PosDef)
    (hR2 : K'.R = .m (d.cov R)) (hdt : K'.dt = K.dt) (hTT : K'.transform = K.transform) (hMM : K'.measTransform = K.measTransform)
    (hf : ∀ t, LinearisesOn env K.transform (fun x => K.transition x (some t) u) n n)
    (hh : ∀ t, LinearisesOn env K.measTransform (fun x => K.measurement x (some t) u) n k)
    (cf : ∀ t, Carries env K.transform c c (fun x => K.transition x (some t) u) (fun x => K'.transition x (some t) u))
    (ch : ∀ t, Carries env K.measTransform c d (fun x => K.measurement x (some t) u) (fun x => K'.measurement x (some t) u))
    (prior prior' : Option Gaussian) {μ : Fin n → ℝ} {P : Matrix (Fin n) (Fin n) ℝ} (hg : HasMoments env (prior.getD K.initState) μ P)
    (hP : P.PosDef) (hg' : HasMoments env (prior'.getD K'.initState) (c.pt μ) (c.cov P)) (ys ys' : List Arr)
    (hys : List.Forall₂ (SameMeas d) ys ys') (tZero : ℝ) :
    ∃ fs fs', K.kalmanFilter env ys prior tZero u = .ok fs ∧ K'.kalmanFilter env ys' prior' tZero u = .ok fs' ∧ fs.length = ys.length ∧
      List.Forall₂ (SameState c) fs fs' := by
  unfold KFS.kalmanFilter
  generalize prior.getD K.initState = g at hg
  generalize prior'.getD K'.initState = g' at hg'
  clear prior prior'
  induction hys generalizing g g' tZero μ P with
  | nil => exact ⟨[], [], rfl, rfl, rfl, .nil⟩
  | @cons y y' ys ys' hy hys ih =>
    obtain ⟨yv, hy, hy'⟩ := hy
    obtain ⟨p, p', hp, hp', hpp⟩ := predict_same (hf tZero) hTT (cf tZero) hQ hQ' hQ2 hg hP hg'
    obtain ⟨m1, C1, hC1, hm1, hm1'⟩ := hpp.moments env
    obtain ⟨r, r', hr, hr', hrr⟩ := correct_same (hh tZero) hMM (ch tZero) hR hR' hR2 hm1 hC1 hm1' hy hy'
    obtain ⟨m2, C2, hC2, hm2, hm2'⟩ := hrr.moments env
    obtain ⟨rs, rs', h1, h2, h3, h4⟩ := ih hC2 (tZero + K.dt) r hm2 r' hm2'
    refine ⟨r :: rs, r' :: rs', ?_, ?_, by simp [h3], .cons hrr h4⟩
    · simp [KFS.filterLoop, hp, hr, h1]
    · simp [KFS.filterLoop, hp', hr', hdt, h2]

theorem smoothLoop_same (hQ : K.Q = .m Q) (hQ' : Q.PosDef) (hQ2 : K'.Q = .m (c.cov Q)) (hdt : K'.dt = K.dt) (hTT : K'.transform = K.transform)
    (hf : ∀ t, LinearisesOn env K.transform (fun x => K.transition x (some t) u) n n)
    (cf : ∀ t, Carries env K.transform c c (fun x => K.transition x (some t) u) (fun x => K'.transition x (some t) u))
    {l l' : List Gaussian} (hl : List.Forall₂ (SameState c) l l') (nx nx' : Gaussian) (t : ℝ) (hnx : SameState c nx nx') :
    ∃ rs rs', KFS.smoothLoop env K u nx t l = .ok rs ∧ KFS.smoothLoop env K' u nx' t l' = .ok rs' ∧ List.Forall₂ (SameState c) rs rs' := by
  induction hl generalizing nx nx' t with
  | nil => exact ⟨[], [], rfl, rfl, .nil⟩
  | @cons g g' l l' hg hl ih =>
    obtain ⟨r, r', hr, hr', hrr⟩ := smooth_same (hf t) hTT (cf t) hQ hQ' hQ2 hg hnx
    obtain ⟨rs, rs', h1, h2, h3⟩ := ih r r' (t - K.dt) hrr
    refine ⟨r :: rs, r' :: rs', ?_, ?_, .cons hrr h3⟩
    · simp [KFS.smoothLoop, hr, hrr.good.1.copy env, h1]
    · simp [KFS.smoothLoop, hr', hrr.good.2.copy env, hdt, h2]

/-- **C90.** Under the same conditions `kalman_smoother` of restated filter results returns the restated smoothed states. -/
theorem C90_smoother (hQ : K.Q = .m Q) (hQ' : Q.PosDef) (hQ2 : K'.Q = .m (c.cov Q)) (hdt : K'.dt = K.dt) (hTT : K'.transform = K.transform)
    (hf : ∀ t, LinearisesOn env K.transform (fun x => K.transition x (some t) u) n n)
    (cf : ∀ t, Carries env K.transform c c (fun x => K.transition x (some t) u) (fun x => K'.transition x (some t) u))
    {fs fs' : List Gaussian} (hne : fs ≠ []) (hfs : List.Forall₂ (SameState c) fs fs') :
    ∃ rs rs', K.kalmanSmoother env fs u = .ok rs ∧ K'.kalmanSmoother env fs' u = .ok rs' ∧ List.Forall₂ (SameState c) rs rs' := by
  unfold KFS.kalmanSmoother
  have hrev := (List.forall₂_reverse_iff (R := SameState c)).2 hfs
  have hlen := hfs.length_eq
  cases h1 : fs.reverse with
  | nil => exact absurd (List.reverse_eq_nil_iff.1 h1) hne
  | cons last states =>
    rw [h1] at hrev
    cases h2 : fs'.reverse with
    | nil => rw [h2] at hrev; cases hrev
    | cons last' states' =>
      rw [h2] at hrev
      obtain ⟨hlast, hst⟩ := List.forall₂_cons.1 hrev
      obtain ⟨rs, rs', a1, a2, a3⟩ := smoothLoop_same hQ hQ' hQ2 hdt hTT hf cf hst last last' (((fs.length : ℝ) - 1) * K.dt) hlast
      refine ⟨(last :: rs).reverse, (last' :: rs').reverse, ?_, ?_, (List.forall₂_reverse_iff (R := SameState c)).2 (.cons hlast a3)⟩
      · simp only [hlast.good.1.copy env, ok_bind, a1]; rfl
      · rw [← hlen, hdt]
        simp only [hlast.good.2.copy env, ok_bind, a2]; rfl

end loops

/-! ## Extended Kalman filters: every invertible affine change -/

section taylor

variable {c : Chart n} {d : Chart k}

theorem jacMat_comp {l : ℕ} (L : (Fin k → ℝ) →L[ℝ] (Fin l → ℝ)) (M : (Fin n → ℝ) →L[ℝ] (Fin k → ℝ)) :
    jacMat (L.comp M) = jacMat L * jacMat M := by
  ext i j
  simp only [jacMat, of_apply, ContinuousLinearMap.comp_apply, mul_apply]
  have := congrFun (L.toLinearMap.pi_apply_eq_sum_univ (M (Pi.single j 1))) i
  simp only [ContinuousLinearMap.coe_coe] at this
  rw [this, Finset.sum_apply]
  refine Finset.sum_congr rfl fun q _ => ?_
  rw [Pi.smul_apply, smul_eq_mul, mul_comm]
  congr 1
  have e : (fun r => if q = r then (1 : ℝ) else 0) = Pi.single q 1 := by
    funext r; simp [Pi.single_apply, eq_comm]
  rw [e]

theorem jacMat_affine (A : Matrix (Fin k) (Fin n) ℝ) : jacMat (LinearMap.toContinuousLinearMap A.mulVecLin) = A := by
  ext i j; exact affine_deriv_apply A i j

theorem eq_restated {F F' : (Fin n → ℝ) → Fin k → ℝ} (h : ∀ x, F' (c.pt x) = d.pt (F x)) : F' = fun x => d.pt (F (c.back x)) := by
  funext x
  rw [← h, c.pt_back]

theorem same_deriv {F F' : (Fin n → ℝ) → Fin k → ℝ} (h : ∀ x, F' (c.pt x) = d.pt (F x)) {μ : Fin n → ℝ}
    {L : (Fin n → ℝ) →L[ℝ] (Fin k → ℝ)} (hF : HasFDerivAt F L μ) :
    ∃ L', HasFDerivAt F' L' (c.pt μ) ∧ jacMat L' = d.A * jacMat L * c.A⁻¹ := by
  rw [eq_restated h]
  have h1 := hasFDerivAt_affine c.A⁻¹ (-(c.A⁻¹ *ᵥ c.a)) (c.pt μ)
  have h2 : HasFDerivAt F L (c.A⁻¹ *ᵥ c.pt μ + -(c.A⁻¹ *ᵥ c.a)) := by
    rw [show c.A⁻¹ *ᵥ c.pt μ + -(c.A⁻¹ *ᵥ c.a) = μ from c.back_pt μ]; exact hF
  have h3 := (hasFDerivAt_affine d.A d.a _).comp (c.pt μ) (h2.comp (c.pt μ) h1)
  exact ⟨_, h3, by rw [jacMat_comp, jacMat_comp, jacMat_affine, jacMat_affine, Matrix.mul_assoc]⟩

theorem same_differentiable {F F' : (Fin n → ℝ) → Fin k → ℝ} (h : ∀ x, F' (c.pt x) = d.pt (F x)) (hF : Differentiable ℝ F) :
    Differentiable ℝ F' := by
  intro x
  obtain ⟨L', h1, -⟩ := same_deriv h (hF (c.back x)).hasFDerivAt
  rw [c.pt_back] at h1
  exact h1.differentiableAt

theorem SameFunc.tame {f f' : SysFunc} (h : SameFunc c d f f') : Tame f n k ∧ Tame f' n k := by
  rcases h with h | ⟨h, h1, h2⟩
  · exact ⟨.inl fun t => by obtain ⟨F, F', a, -, b, -⟩ := h t; exact ⟨F, a, b⟩,
      .inl fun t => by obtain ⟨F, F', -, a, b, e⟩ := h t; exact ⟨F', a, same_differentiable e b⟩⟩
  · exact ⟨.inr ⟨fun t => by obtain ⟨F, F', a, -, b, -⟩ := h t; exact ⟨F, a, b⟩, h1, h2⟩,
      .inr ⟨fun t => by obtain ⟨F, F', -, a, b, e⟩ := h t; exact ⟨F', a, same_differentiable e b⟩, h1, h2⟩⟩

theorem isVec_inj {a : Arr} {x y : Fin k → ℝ} (h : IsVec a x) (h' : IsVec a y) : x = y := by
  have := h.atleast1d.symm.trans h'.atleast1d
  simpa using this

theorem SameFunc.carries (hjac : CorrectJac jac) {f f' : SysFunc} (h : SameFunc c d f f') (t : ℝ) :
    Carries env (taylorTransform env jac) c d (fun z => f z (some t) none) (fun z => f' z (some t) none) := by
  intro g g' μ P hg hP hg' z zv S C hz hT
  have alg : ∀ J : Matrix (Fin k) (Fin n) ℝ, (d.A * J * c.A⁻¹) * c.cov P * (d.A * J * c.A⁻¹)ᵀ = d.cov (J * P * Jᵀ) ∧
      c.cov P * (d.A * J * c.A⁻¹)ᵀ = c.A * (P * Jᵀ) * d.Aᵀ := by
    intro J
    have ht : IsUnit c.Aᵀ.det := by rw [det_transpose]; exact c.isUnit
    constructor <;>
      simp only [Chart.cov, transpose_mul, transpose_nonsing_inv, Matrix.mul_assoc, mul_nonsing_inv_cancel_left _ _ ht,
        nonsing_inv_mul_cancel_left _ _ c.isUnit]
  rcases h with h | ⟨h, h1, h2⟩
  · obtain ⟨F, F', hF, hF', hd, e⟩ := h t
    have a := C17_taylor_linearises hjac hg hF (hd μ).hasFDerivAt
    obtain ⟨L', hL', eL⟩ := same_deriv (c := c) (d := d) e (hd μ).hasFDerivAt
    have b := C17_taylor_linearises hjac hg' hF' hL'
    rw [hT, Except.ok.injEq, Prod.mk.injEq, Prod.mk.injEq, Arr.m_inj, Arr.m_inj] at a
    obtain ⟨rfl, rfl, rfl⟩ := a
    rw [eL, (alg _).1, (alg _).2, e] at b
    rw [isVec_inj hz (.inr rfl)]
    exact ⟨_, .inr rfl, b⟩
  · obtain ⟨F, F', hF, hF', hd, e⟩ := h t
    have a := C17_taylor_linearises_rows hjac h1 h2 hg hF (hd μ).hasFDerivAt
    obtain ⟨L', hL', eL⟩ := same_deriv (c := c) (d := d) e (hd μ).hasFDerivAt
    have b := C17_taylor_linearises_rows hjac h1 h2 hg' hF' hL'
    rw [hT, Except.ok.injEq, Prod.mk.injEq, Prod.mk.injEq, Arr.m_inj, Arr.m_inj] at a
    obtain ⟨rfl, rfl, rfl⟩ := a
    rw [eL, (alg _).1, (alg _).2, e] at b
    rw [isVec_inj hz (.inl rfl)]
    exact ⟨_, .inl rfl, b⟩

/-- **C90.** The extended Kalman filter and smoother: state the same system, with the same measurements, in other coordinates or units
(any invertible affine change of the state and of the measurements); the results are the old ones in the new coordinates. -/
theorem C90_extended (hjac : CorrectJac jac) {sys sys' : Sys} {Q : Matrix (Fin n) (Fin n) ℝ} {R : Matrix (Fin k) (Fin k) ℝ} {μ : Fin n → ℝ}
    {P : Matrix (Fin n) (Fin n) ℝ} (hs : SameNoise env c d Q R μ P sys sys') (hf : SameFunc c c sys.transition sys'.transition)
    (hh : SameFunc c d sys.measurement sys'.measurement) {ys ys' : List Arr} (hne : ys ≠ []) (hys : List.Forall₂ (SameMeas d) ys ys')
    (tZero : ℝ) :
    ∃ fs fs' rs rs', (KFS.init (taylorTransform env jac) sys none).kalmanFilter env ys none tZero none = .ok fs ∧
      (KFS.init (taylorTransform env jac) sys' none).kalmanFilter env ys' none tZero none = .ok fs' ∧
      (KFS.init (taylorTransform env jac) sys none).kalmanSmoother env fs none = .ok rs ∧
      (KFS.init (taylorTransform env jac) sys' none).kalmanSmoother env fs' none = .ok rs' ∧ fs.length = ys.length ∧
      List.Forall₂ (SameState c) fs fs' ∧ List.Forall₂ (SameState c) rs rs' := by
  have lf := fun t => hf.tame.1.linearises (k := n) hjac env t
  have cf := fun t => hf.carries (env := env) hjac t
  obtain ⟨fs, fs', h1, h2, h3, h4⟩ := C90_filter (env := env) (u := none) (K := KFS.init (taylorTransform env jac) sys none)
    (K' := KFS.init (taylorTransform env jac) sys' none) hs.hQ hs.posQ hs.hQ' hs.hR hs.posR hs.hR' hs.dt rfl rfl lf
    (fun t => hh.tame.1.linearises hjac env t) cf (fun t => hh.carries hjac t) none none hs.init hs.posP hs.init' ys ys' hys tZero
  have hne' : fs ≠ [] := by rintro rfl; exact hne (List.length_eq_zero_iff.1 h3.symm)
  obtain ⟨rs, rs', h5, h6, h7⟩ := C90_smoother (env := env) (u := none) (K := KFS.init (taylorTransform env jac) sys none)
    (K' := KFS.init (taylorTransform env jac) sys' none) hs.hQ hs.posQ hs.hQ' hs.dt rfl lf cf hne' h4
  exact ⟨fs, fs', rs, rs', h1, h2, h5, h6, h3, h4, h7⟩

end taylor

/-! ## Restated systems -/

section restate

theorem Chart.restate_vec (c : Chart n) (d : Chart k) {f : SysFunc} {t u : Option ℝ} {F : (Fin n → ℝ) → Fin k → ℝ}
    (hf : VecFunc (fun z => f z t u) F) : VecFunc (fun z => c.restate d f z t u) (fun x => d.pt (F (c.back x))) := by
  intro x
  have h1 := affineFunc_vec c.A⁻¹ (-(c.A⁻¹ *ᵥ c.a)) x
  have h2 := hf (c.back x)
  dsimp only [Chart.back] at h2
  simp only [Chart.restate, h1, ok_bind, h2, affineFunc_vec d.A d.a _]
  rfl

theorem Chart.restate_row (c : Chart n) (d : Chart k) {f : SysFunc} {t u : Option ℝ} {F : (Fin n → ℝ) → Fin k → ℝ}
    (hf : RowFunc (fun z => f z t u) F) : RowFunc (fun z => c.restate d f z t u) (fun x => d.pt (F (c.back x))) := by
  intro x
  have h1 := affineFunc_vec c.A⁻¹ (-(c.A⁻¹ *ᵥ c.a)) x
  have h2 := hf (c.back x)
  dsimp only [Chart.back] at h2
  simp only [Chart.restate, h1, ok_bind, h2, affineFunc_rows d.A d.a _]
  congr 2
  ext i j
  simp [Chart.pt, Chart.back, mul_apply, mulVec, dotProduct, mul_comm]

theorem Chart.restate_onRows (c : Chart n) (d : Chart k) {f : SysFunc} {t u : Option ℝ} {F : (Fin n → ℝ) → Fin k → ℝ}
    (hf : OnRows (fun z => f z t u) F) : OnRows (fun z => c.restate d f z t u) (fun x => d.pt (F (c.back x))) := by
  intro N X
  have h1 := affineFunc_rows c.A⁻¹ (-(c.A⁻¹ *ᵥ c.a)) N X
  have e : X * c.A⁻¹ᵀ + (of fun _ j => (-(c.A⁻¹ *ᵥ c.a)) j) = of fun i => c.back (X i) := by
    ext i j
    simp [Chart.back, mul_apply, mulVec, dotProduct, mul_comm]
  rw [e] at h1
  have h2 : f (.m (of fun i => c.back (X i))) t u = .ok (.m (of fun i j => F (c.back (X i)) j)) := hf N (of fun i => c.back (X i))
  simp only [Chart.restate, h1, ok_bind, h2, affineFunc_rows d.A d.a _]
  congr 2
  ext i j
  simp [Chart.pt, mul_apply, mulVec, dotProduct, mul_comm]

/-- **C90.** Every system function that the extended filters accept can be restated in any coordinates. -/
theorem C90_restate (c : Chart n) (d : Chart k) {f : SysFunc} (h : Tame f n k) : SameFunc c d f (c.restate d f) := by
  rcases h with h | ⟨h, h1, h2⟩
  · refine .inl fun t => ?_
    obtain ⟨F, hF, hd⟩ := h t
    exact ⟨F, _, hF, c.restate_vec d hF, hd, fun x => by rw [c.back_pt]⟩
  · refine .inr ⟨fun t => ?_, h1, h2⟩
    obtain ⟨F, hF, hd⟩ := h t
    exact ⟨F, _, hF, c.restate_row d hF, hd, fun x => by rw [c.back_pt]⟩

/-- A whole system in new coordinates. -/
noncomputable def Chart.sys (c : Chart n) (d : Chart k) (Q : Matrix (Fin n) (Fin n) ℝ) (R : Matrix (Fin k) (Fin k) ℝ) (μ : Fin n → ℝ)
    (P : Matrix (Fin n) (Fin n) ℝ) (sys : Sys) : Sys :=
  ⟨c.restate c sys.transition, c.restate d sys.measurement, .m (c.cov Q), .m (d.cov R), ofMoment (.v (c.pt μ)) (.m (c.cov P)), sys.dt⟩

theorem Chart.sys_same (c : Chart n) (d : Chart k) {Q : Matrix (Fin n) (Fin n) ℝ} {R : Matrix (Fin k) (Fin k) ℝ} {μ : Fin n → ℝ}
    {P : Matrix (Fin n) (Fin n) ℝ} {sys : Sys} (hQ : sys.Q = .m Q) (hQ' : Q.PosDef) (hR : sys.R = .m R) (hR' : R.PosDef)
    (hg : HasMoments env sys.initState μ P) (hP : P.PosDef) : SameNoise env c d Q R μ P sys (c.sys d Q R μ P sys) :=
  ⟨hQ, rfl, hR, rfl, hg, hasMoments_ofMoment .., rfl, hQ', hR', hP⟩

/-- Kilometres instead of metres, and a shifted origin, on the growth model. -/
example : ∃ (c d : Chart 1) (sys : Sys), UNGM.init = .ok sys ∧ c.A = !![1 / 1000] ∧ c.a = ![3] ∧ d.A = !![-5] ∧
    ∃ fs fs', (KFS.init (taylorTransform calmEnv exactJac) sys none).kalmanFilter calmEnv [.v ![2], .v ![4]] none 0 none = .ok fs ∧
      (KFS.init (taylorTransform calmEnv exactJac) (c.sys d (m1 1) (m1 10) (v1 0) (m1 5) sys) none).kalmanFilter calmEnv
        [.v ![-9], .v ![-19]] none 0 none = .ok fs' ∧ List.Forall₂ (SameState c) fs fs' := by
  refine ⟨⟨!![1 / 1000], ![3], by simp⟩, ⟨!![-5], ![1], by simp⟩, ungm, ungm_init, rfl, rfl, rfl, ?_⟩
  set c : Chart 1 := ⟨!![1 / 1000], ![3], by simp⟩
  set d : Chart 1 := ⟨!![-5], ![1], by simp⟩
  have hm : ∀ a b : ℝ, -5 * a + 1 = b → SameMeas d (.v ![a]) (.v ![b]) := by
    intro a b h
    refine ⟨![a], .inr rfl, ?_⟩
    have : d.pt ![a] = ![b] := by
      ext i
      fin_cases i
      simp [d, Chart.pt, ← h, mul_comm]
    rw [this]
    exact .inr rfl
  obtain ⟨fs, fs', -, -, h1, h2, -, -, -, h3, -⟩ := C90_extended (c := c) (d := d) (ys := [.v ![2], .v ![4]]) (ys' := [.v ![-9], .v ![-19]])
    exactJac_correct (c.sys_same (env := calmEnv) d (sys := ungm) (Q := m1 1) (R := m1 10) rfl (m1_posDef.2 one_pos) rfl
      (m1_posDef.2 (by norm_num)) (sG_moments calmEnv 0 5) (m1_posDef.2 (by norm_num)))
    (C90_restate c c (.inl fun t => ⟨_, (ungm_transition t none).vec, (ungm_transition t none).differentiable⟩))
    (C90_restate c d (.inl fun t => ⟨_, (ungm_measurement (some t) none).vec, (ungm_measurement (some t) none).differentiable⟩)) (by simp)
    (.cons (hm _ _ (by norm_num)) (.cons (hm _ _ (by norm_num)) .nil)) 0
  exact ⟨fs, fs', h1, h2, h3⟩

end restate

end Verif
